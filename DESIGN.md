# Design

Object of study: the C++ sources of Prio+ in `/repo` (read as text, never built or run).
The model and all proofs are Lean 4 (with Mathlib) in `/verif/lean/Verif`.

## 1. Modelling conventions

| C++ | Lean |
|---|---|
| `uint64_t`, `size_t`, `ulong` | `BitVec 64` (wrap-around is the ring structure) |
| `unsigned int`, `uint32_t` | `BitVec 32`, or `Nat` for loop counters over a list whose length is < 2^32 |
| `fmpz_t` | `ℤ` (unbounded), `fmpz_mod` = `Int.emod`, `fmpz_invmod` = `Option ℤ` (`none`: "value undefined") |
| `fmpz_mod_poly_t` | `Polynomial (ZMod p)` (FLINT's documented meaning) |
| `fmpq` | `ℚ` |
| bytes on a socket | `List Byte`, `Byte = BitVec 8`, host order = little endian (x86-64) |
| pointer to gate | index into the gate list |
| `unordered_map` | association list in insertion order; iteration = an arbitrary permutation |
| random draws | explicit arguments, universally quantified |
| undefined behaviour / divergence | a separate outcome (`none`, `Proc.fault`, or a divergence theorem) |

Two servers are two programs in a small process language (`Proc`): `send bytes`, `recv n`, OT send / OT
receive, `ret`, `fault`. A global state is (program 0, program 1, bytes in flight 0→1, bytes in flight 1→0). A
small-step relation interleaves them arbitrarily; OT is a rendezvous of a sender and a receiver that gives the
receiver the chosen words only (ideal functionality of `emp::IKNP`). A confluence theorem (C52) turns a result
for one schedule into a result for all schedules.

The child process created by `fork` only sends; with unbounded channels "fork, child sends, parent receives,
wait" is the same as "send, then receive", which is how it is written in `Proc`. The reason for the fork, finite
socket buffers, is modelled separately (C51).

## 2. Files

All files are directly in `lean/Verif`. `Model*.lean`: the model. `Spec*.lean`: specifications independent of the
model. `Lemmas*.lean`: helper lemmas. `Props*.lean`: the property theorems (`Cnn_...`), one file per topic, with a
concrete instance beside each theorem.

## 3. Properties: what is modelled, how it is proved

| id | model | proof |
|---|---|---|
| C01 | the literals | Lucas certificate with base 7-type witness, kernel-evaluated modular powers; order from the half power being -1 |
| C02 | `init_roots` with its cache | order of the generator; induction on the table index; negation at N = 2^19 |
| C03 | 32-bit loop with fuel; divergence = `none` for every fuel | loop invariant ans = 2^k |
| C04, C05 | `SplitShare` | modular arithmetic; explicit inverse of the share map |
| C06 | client share formation on `BitVec 64` | bitwise reasoning; masks by 2^b |
| C07 | dealer functions | ring identity in `ZMod p` |
| C08, C09 | `makeLocalDaBit` | parity argument using p odd; counting of draws; witness for the negation |
| C10 | `makeLocalEdaBit` loop | induction on n |
| C11, C12 | `recv_in` over a scripted socket (list of recv results) with unsigned arithmetic | induction over the script; explicit script for the negation |
| C13–C15 | byte encoders/decoders of `net_share.cpp` | round-trip lemmas with arbitrary suffix; induction over chunks |
| C16–C19 | OT sums on `BitVec 64` | ring identity mod 2^64; `Nat` reasoning with no-overflow bounds for modulus ≠ 0; witnesses |
| C20–C24 | triples, daBits, conversions, adder | Boolean case analysis, `ZMod p` identities, induction over bits |
| C25 | queue pair with generation rules | invariant by induction over histories |
| C26, C27 | gate lists, `Eval`, `ImportWires` | evaluation lemmas for the generated circuit for all degrees; induction over gates |
| C28 | `fft_recurse` on its arrays (six buffers, pointer offsets, bounds checks) | frame invariant for the scratch arrays, then induction on log n: DFT identity, orthogonality of roots |
| C29 | product tree, remainder tree, Lagrange coefficients | `Polynomial` lemmas; Mathlib's `Lagrange` |
| C30–C32 | `share_polynomials`, `Checker` | polynomial identity; root counting; bijection of the randomness |
| C33 | `validate_snips` in `Proc` | symmetric addition |
| C34 | intake loops | induction over submissions against "first admissible submission" |
| C35–C40, C42, C44–C49 | operations in `Proc`, byte level | symbolic execution of both programs + confluence; permutation invariance; witnesses for the false ones |
| C41 | numbers | bound 2^46 < p; witness at 24 bits |
| C43 | `SolveLinReg` over ℚ | Gram matrix algebra |
| C50 | main-loop state machine | invariant over histories; after a passing FREQ batch false: a computed run of the whole session (`RunsQ`: both queues with bytes left over) that ends with different check points |
| C51 | bounded channels, four threads | progress + decreasing measure; deadlock witness without fork |
| C52 | `Proc` | diamond property |
| C53 | `emp::PRG` as counter-mode stream, passed by value | equality of the two draws |
| C54 | hex printing | digit injectivity |
| C55 | deterministic generator from a fixed state, booted servers | equality of the draws; explicit forged triple; counting of accepting choices for a uniform check point |
| C56 | `validate_snips` | `fault` outcome |
| C57 | intake with end of stream and stale buffer | induction for record boundaries; witness inside a record |
| C58 | ideal packed HE | index arithmetic and ring identity |
| C59 | client programs (generator to bytes, printed answer) + one main-loop iteration of both servers | key distinctness from the counter-mode blocks; composition with C35–C40, C42, C44; the operation's own theorem gives the answer, uniqueness of outcomes (C52) identifies it with the printed one |
| C60 | `freq_op` | bounds |
| C61 | `max_op` allocation in 32-bit arithmetic | range of the product; `fault` beyond it |
| C62 | `ArithTripleGenerator` with one engine for both servers | index arithmetic on the common sequence; explicit masks for the part that holds |
| C63 | `Proc.watch` (ModelView.lean) records every byte and every oblivious-transfer word a program receives; OT is ideal (the receiver gets the chosen word only) | the exact view of both servers is computed by composing `PairW`; then equality of views: directly, by a shift of the masks (BIT_SUM, INT_SUM at server 1), or by a bijection of the clients' words (`xorSet_equiv`; AND, OR, MAX, MIN at server 0) |
| C64 | VAR and LINREG: the views of C63 for `varOp0`/`varOp1` and `linOp0`/`linOp1` with honest rows from `clientVar`/`clientLin` placed anywhere among arbitrary others (`fill`, `Arrives`); draws of a packet are the type `Draws c` of all valid draws, masks the type `Mask` of residues. Server 0's uninitialised arrays are the function `u` | `snip_hide0`, `snip_hide1` (LemmasViewHide.lean): the bijection of C32 for each packet and `words_mask_shift` for the OT words, then both runs are computed with `PairW` and compared. `C64_lin_memory_leak`: server 1's view is read backwards (`seen_split`, `corShares_inj`), and for an unmatched row the checker's share is a known nonzero multiple of the share of the first feature (`leak_poly`, `leak_share`). Words instead of residues (`C64_*_server1_words_partial`): a bijection of residues acts on each block of `p` words (`wordEquiv`), the programs use the residues of the used masks only (`snip_swap`); holds whenever the used masks are below 131071*p |
| C65 | FREQ: everything a server gets, including bytes left unread (`Gets0`, `Gets1`), for `freqOp0`/`freqOp1` with honest rows from `clientFreq` placed anywhere among arbitrary others. Server 0 with jointly made daBits: same histogram, a XOR of server 1's drawn bits and the matching change of its stored daBits keep everything server 0 gets (`C65_freq_server0_partial`). Server 1: any values; bijections of the arrays, of server 0's draws (lazy: all draws but `r = p - 2`; joint: masks as uniform residues) and of its stored daBits. False for server 0 in the compiled-in lazy setting: `C65_freq_lazy_leak` (all shares of server 1 follow from what server 0 gets), `C65_freq_lazy_values` (every honest value), `C65_freq_lazy_false` (concrete pair of runs). `C65_freq_server1_words_partial`: the same for masks drawn as 64-bit words, if those of the batch are fair |
| C66 | `rnd`: rounding to 53 significant bits, ties to even (ModelDouble); `varAnswer` and the client's `varPrinted` follow server.cpp:884-893 and client.cpp:857-863 operation by operation, `subSquare` has both ways of compiling `ex2 - (ex * ex)`. The specification `NearVar` (SpecVariance) does not mention the model | error bounds of one rounding (`rnd_err`) through the five operations; the variance of integers that are not all equal is at least (n-1)/n^2 (`spread_ge`), which exceeds the error as long as the squares add up to less than 2^48; `C66_range`: all exact results lie on a grid of 2^-220, so no underflow |
| C67 | the client loops of ModelUpload with the generator as block function plus bits; `Redraw` says what a change of the draws may do: a bijection that keeps the position and changes blocks and finitely many bits | per operation an involution that XORs the blocks of the first submission (AND/OR: moves all later blocks by one place, since a word more is drawn for one of the values), and `Same`/`Moved`: the rest of the run is unchanged. Proof packets by `view0_equiv`/`view1_equiv` |
| C68 | the server programs of C35-C46 on streams `fill key A f`: `A` lists in order of arrival the honest clients (`inl i`) and arbitrary other submissions (`inr (key, row)`); `Arrives` says that every honest client arrives and no other uses its key | `both_split`, `both_sum`: the keys accepted at both servers are the honest ones plus those of `others A0`, `others A1`; the answer theorems C35-C45 are then rewritten as honest part plus a part that depends on the others only. `batch_count`: union bound over the submissions of a batch, so that `C68_var_sound` and `C68_linreg_sound` need no assumption that the checks are sound |
| C69 | the check of C30, C31 on arbitrary packets; `Genuine`: the sums of the two packets are those of `sharePolynomials` for some valid draws; `Refused`: at most 2N bad points, elsewhere p^k accepting coefficient lists | `checkPoly` is a polynomial in the check point of degree below 2N whose coefficients decide acceptance; if it is zero for a valid input, `honest_of_zero` recovers the draws of an honest client (f(0), g(0), a, b are read off), so acceptance everywhere is equivalent to `Genuine`. `C69_off_by_one` covers the damages of client.cpp:977-984; `C69_var_batch`, `C69_linreg_batch` use `batch_count` |
| C70 | `main` of the client (client.cpp:1490-1662): `atoi` on character lists, the checks in their order, the choice of the operation; the outcomes are usage, error, undefined, exception, or the bytes for both servers and what is shown. Sockets are not modelled; connecting succeeds | `C70_atoi` by folding over the digits; `C70_runs` by cases on the operation, with `Writes` (a string of decimal digits and its value) as the specification of an argument; the three negations hold for every such command line; `C70_unknown` runs `iteration_pair` on the idle batch |
| C71 | `iteration` of C56 with the servers' width as a parameter apart from the client's; for FREQ (PropsWidthFreq) the row length depends on the width | the first admissible submission of a key, the keys held by both, and the reconstructed inputs agree for two widths if all rows fit the smaller one (`C71_answers`); `C71_round` runs both and uses that the answer is determined; `C71_int_any` computes the kept rows for any widths; `C71_freq_any` does so for FREQ with widths up to 3 (one byte per row, read with zeros or cut off), `C71_freq_wider_partial` for wider servers; `C71_false_freq` compares the number of bytes read and sent; witness for the negation with an injective block function |
| C72 | `serverStart` (the parsing at the head of `main`), `startedServer` = `serverMain` with `CACHE_SIZE` and lazy precomputation, `serverProgram`; connection set-up is left out | `C72_start` uses the parse of C70. Same width: C47. Smaller width at server 0: a reader of n daBits takes a fixed number of bytes whatever they are (`Exact`), server 0 sends fewer and then nothing before it hears from server 1 (`Silent`, for every operation), so one reachable state is stuck with server 1 receiving, and by C52 every schedule ends there (`NeverServes`). No width at server 1: `xor_unread` runs AND and OR of one submission with arbitrary bytes unread. Both widths positive and server 1's the smaller one is not treated: server 1 misreads the last chunk, with effects that depend on the draws |
| C73 | `recvCut` (`recv_in` at the end of the stream leaves the rest of the buffer), buffers as lists of optional bytes (none: never written); the intake loops of VAR, MAX, LINREG and FREQ over such buffers; the rest of MAX and VAR | `C73_recv_in` ties `recvCut` to the model of `recv_in` of C49. `C73_full_*`: on complete streams the loops are those of the earlier models. Induction over the remaining iterations with the buffer of the previous one as parameter (`whole` is the specification of the complete records). `Faults`: by C52 every schedule ends with one of the servers in undefined behaviour. LINREG and FREQ are stated twice: for a machine whose fresh memory holds arbitrary bytes, and strictly, where reading it is undefined |
| C74 | `Snd`: a sender as a function of the outcomes of its calls of `send` (part taken, or error); every sender of net_share.cpp and the wrappers of the client and the servers. A signal (`SIGPIPE`) that ends the process is not an outcome | Nested senders are flattened to lists of calls (`sendSeq_parts`); induction over the list for `SendsAll` and `Faithful`; strong induction over the length for chunked batches. The negations run the sender on the given outcomes and the receiver (`Takes`) on what was sent |
| C75 | The session model of C47. Programs that never read from the peer run the same with bytes unread (`Pair.runs`); the FREQ query leaves the validity vector (`iteration_freq`); MAX and the second FREQ are run with the vector in front of what server 0 sends. | `C75_sums_partial` by induction over the list of queries; `C75_false_max`, `C75_false_freq_twice`, `C75_false_freq_certain`, `C75_false_freq_masked`, `C75_false_witness` by stepping both programs. `Faults1`: in every schedule server 1 has no result and undefined behaviour is ahead of it. The case that the store of daBits is refilled after the FREQ query, and VAR and LINREG after FREQ, are not treated. |
| C76 | `session` (ModelMain) with different lists of connections at the two servers | the head of the loop is idempotent, so unknown messages are passed over; sessions whose servers are one query apart are sessions of crossed batches, to which C47 applies; `C76_false_stray0/1`, `C76_false_twelve_bytes`; an empty BIT_SUM simulates an empty INT_SUM at server 1 (`C76_false_twelve_bytes_int`); when one server goes into an OT after the keys (BIT_SUM, INT_SUM, VAR, STDDEV, LINREG) and the other one exchanges messages (AND, OR, MAX, MIN), every schedule reaches the same deadlock (`C76_false_stray_other`); likewise when FREQ, whose daBits are at hand, exchanges its masked bits with a server in an OT (`C76_false_stray_freq0/1`) |
| C77 | `loopBody` (the dispatch of ModelMain) on arbitrary byte strings | `Deadly` lists the byte strings; `loopBody_deadly` computes the fault, `Proc.Post` carries it to every peer and schedule, `session_pair` and `loopHead_pair` show that the fault is reached; any 40 n bytes are n submissions (`bytes_are_shares`), so C47 applies; `C77_false_*`, `C77_any_bytes_partial` |
| C78 | `session` (ModelMain) with views: what each server receives in all rounds together | `Pair.recorded` turns every paired run into one with views; `dispatch_view` gives the views of a query, `session_views` joins them by induction over the rounds in two worlds; `seen1_same` (masks shifted), `seen0_same`, `Query.rearranged` (random words of honest clients, from `xorSet_equiv`); `C78_server1`, `C78_server0`, `C78_server0_honest`. With VAR, STDDEV and LINREG the states of the servers differ between the two worlds (tables, stored precomputations); `dispatch_same` shows that what is seen depends only on the check point, its uses and the position (`Shared`), which are the same in both; `hidden_views` joins the queries, `AnyQuery.hide0` takes each from C64; `C78_server0_any`; likewise `OpenQuery.hide1` and `C78_server1_any_partial` (partial as in C64: masks taken to be uniform residues). Not covered: FREQ (C65) |
| C79 | ModelMem: the operations as programs on a heap of blocks (owner, way of allocation, bytes) and a stack limit, statement by statement in allocation, release and automatic arrays; the values are left out, so that branches on them (which submissions are usable, which keys are announced, whether the answer is refused) are parameters | triples `Tri S R m Q` with framing over multisets of blocks (LemmasMem*.lean), induction over rows and over the session; `C79_plain_partial` (BIT_SUM, INT_SUM, AND, OR, MAX, MIN balanced), exact losses in `C79_plain_server0_partial`, `C79_server1_partial`, `C79_freq0_partial`, `C79_var1_partial`, `C79_var0_partial`, `C79_linreg1_partial`, `C79_linreg0_partial`; sessions that mix all operations (ModelMemAll) in `C79_any1_partial`, `C79_any0_partial`, `C79_any_partial`; false in full: `C79_false_refill`, `C79_false_freq`, `C79_false_var`, `C79_false_linreg`, `C79_false_linreg_session`, `C79_false_stack`, and `C79_false_twice`, `C79_false_twice_linreg` (PropsMemTwice) if a usable key is announced twice; that this is the exact condition is `C79_var0_iff`, `C79_linreg0_iff`, with the losses under it in `C79_var0_once_partial`. FLINT's own allocations inside `fmpz` values and the blocks inside STL containers are balanced by their destructors or counted as part of the object; early returns after a failed receive are not included; the sizes used for LINREG are those of the circuit and of the rest of the model (`C79_lin_sizes`) |
| C80 | the four debugging clients without SNIPs, `ModelInvalid`; what a read through the dangling `prev_pk` gives is a parameter (`none` in the program as it is) | the keys accepted by both servers are those of the clients that count (`spoiled_keys`), then as C59; undefined from three (five) submissions on, and INT_SUM counts client 0 if its word is in range. VAR and STDDEV (`ModelInvalidVar`): the tampered packets, the wrong square and the row out of range are refused by C69 for all but a bounded number of check points; undefined from 12 submissions on, exactly 24 or more are needed for an answer. LINREG (`ModelInvalidLin`, degree 2): the same, with the answer given by Cramer's rule (`line2`) |
| C81 | ModelMemPre: the blocks behind a `CheckerPreComp` (tree, points, derivative, coefficients), made, renewed, used and released call by call; nodes and check points are values, since `precomp_x_clear` decides by them | invariant over sessions on the separation-style triples of C79; the tables are all N-th roots of unity (C02), which gives the lost bytes as a function of the check points; closed form of the bytes held |
| C82 | ModelSeed: the calls on `seed` in order (set up, draw, clear) | state machine equivalent to the statement by positions; exact characterisation of the sessions that are in order |
| C83 | ModelConnect: the processes as a transition system, one step per system call (`bind`+`listen`, `accept`, `connect`); ports as 16-bit words after `htons`, sockets with queues, `SO_REUSEPORT` as in the code. Left out: the limit of the queues, other programs, failures for other reasons, the two ports of the OT library, and what is sent (a server may pass from call to call at any time, so that the model has more executions than the code) | invariants over all executions (`Placed`, `InOrder`); the negations are executions built step by step for all ports of the given kind; `Lost` is an invariant of all continuations; joined with C47 (`C83_answers_partial`) and with the crossed queries of C76 (`C83_false_answers`) |
| C84 | the models of C59, C70, C72, C47 and C83 put together; nothing new is modelled. `ClientRun.Fine` lists what is asked of a run, `ClientRun.Correct` is the specification of what it should print | C59 gives each run at two servers in step; `Always.pair` turns a statement on all schedules back into one that can be continued; induction over the runs; `C84_deployment` adds the order of the connections (C83), `C84_freq_last` a last run of FREQ |
| C85 | ModelMemClient: the `*_helper` functions of the client, `share_polynomials` and `fft_interpolate` as programs on the heap of C79 (allocations, releases, accesses, automatic arrays; values left out) | triples over multisets of blocks, induction over the submissions; `C85_client` (balanced up to the tables of roots), `C85_stack` (the stack need is exact), `C85_degree` |
| C86 | ModelPrint: `operator<<` for integers, `bool` (boolalpha) and `double` (`%g`, six digits, rounded to nearest even from the exact value, exponent form outside 10^-4..10^6, zeros dropped), the lines of FREQ and LINREG. Left out: the intermediate line of `var_op`, the text of not-a-number (its sign depends on the processor), negative zero (never printed) | a reader of decimal numbers written apart from the printing (LemmasPrint, PropsPrint); digit lists by induction, the value is unchanged by dropping zeros (`C86_nat`, `C86_int`, `C86_flag`, `C86_freq`, `C86_double`, `C86_var`, `C86_lin`, `C86_lin_line`); `C86_false_var` for more than six digits; ModelPrintMain has the answer lines of both programs with their labels, `C86_same`, `C86_session` and `C86_freq_last` compare them on the sessions of C84; `C86_quiet` and `C86_refused`: no answer line otherwise |

## 4. Trusted base

* Lean kernel; axioms `propext`, `Classical.choice`, `Quot.sound` only (per theorem list in section 6).
* Reading of the C++ by hand into the model (each definition cites file and lines).
* Library semantics taken from documentation, not from code: FLINT (`fmpz_*`, `fmpz_mod_poly_*`, `fmpq_mat_*`,
  `fmpz_randm` returns a value in [0, m)), emp-ot IKNP as ideal OT, emp-tool PRG as counter-mode stream with
  value semantics, POSIX `recv`, PALISADE as ideal packed HE, `std::unordered_map`.
* Little-endian 64-bit platform, sizes of structs as laid out by the Itanium ABI (BitShare 33, IntShare 40,
  VarShare 48 bytes).
* `double` is IEEE binary64 in the default rounding mode without excess precision; `sqrt` is correctly rounded.
* C67: AES in counter mode under a fresh key, and the bits of `random_bool`, behave as uniform and independent draws
  (in emp-tool the bits come from blocks of the same stream that are not used otherwise).

## 5. Not modelled

Timing output, the memory used by the debugging clients and by error returns (the servers' operations: C79; the client: C85), the final rounding of LINREG's coefficients (`fmpq_get_d`, one rounding; the rational is modelled), the connections of the OT library and full queues in connection set-up (the rest: C83), the effect of failing sends on whole operations (the senders themselves: C74),
cryptographic security of IKNP/BFV/AES.

## 6. Disagreements found between code and property

| property | what the code does | theorem |
|---|---|---|
| C02 | at N = 2^19 the doubled table is all ones (generator order is 2^19) | `C02_false_at_full_order` |
| C03 | for 2^31 <= n < 2^32-1 the loop never ends; n = 2^32-1 gives 1 | `C03_diverges`, `C03_max_returns_one` |
| C09 | one value of each server's modular part reveals the bit | `C09_false_server0_leak`, `C09_false_server1_leak` |
| C11 | the reported count is negative from 2 GiB on (`int` result of an unsigned counter) | `C11_false_count_above_int` |
| C12 | a `recv` error after k > 0 bytes steps back one byte and carries on (net_share.cpp:22-26, `tmp` is unsigned) | `C12_false_mid_message_error` |
| C15 | the empty string is not delivered | `C15_empty_string` |
| C17 | `bitsum_ot_sender` with a non-zero modulus that does not divide 2^64: mask 0 and sender bit 1 give `b1 = b0 + 1 - 2 = 2^64 - 1`, which is reduced modulo the modulus to the wrong residue (ot.cpp) | `C17_false_zero_mask` |
| C19 | above 48 bits `modulus - 2^k` wraps in `uint64_t` (ot.cpp `intsum_ot_sender`) and the conversion is wrong for some masks | `C19_false_at_49_bits` |
| C23 | `1 << j` is computed in `int` (correlated.cpp:293): wrong weight for j = 31, undefined for j > 31 | `C23_wrong_at_32_bits`, `C23_undefined_from_33_bits` |
| C26 | the layout comment circuit.h:238-242 puts `y` behind the pair products; the code checks it at position `d-1`, directly behind the features (the property follows the code, as does client.cpp) | `C26_checkLinReg` |
| C39 | with no submissions, or when all columns cancel, the scan of `max_op` never meets a difference and its unsigned index wraps: out-of-bounds read (server.cpp:681) | `C39_all_cancel_crashes`, `C39_empty_batch_crashes` |
| C61 | `total_inputs * (B + 1)` is computed in 32 bits (server.cpp:593): from 2^32 words on the array is too small | `C61_max_overflow` |
| C40 | with no counted row and none expected the answer is 0/0 | `C40_var_op` (outcome `none`) |
| C41 | at 24 bits and more, value 0 with square p passes the range and circuit checks | `C41_false_from_24` |
| C49 | `max_val * max_val` wraps modulo 2^64: for 32..63 bits VAR rejects every submission | `C49_var_wrap` |
| C56 | an empty admitted batch makes `validate_snips` read `circuit[0]` of an empty array (server.cpp:209); at 32..63 bits every VAR run ends so | `C56_false_var_empty`, `C56_false_var_wide` |
| C56 | LINREG: as VAR, an empty admitted batch makes validate_snips read circuit[0] of an empty array; at 32..63 bits and degree at least 2 every run ends so | `C56_false_linreg_empty`, `C56_false_linreg_wide` |
| C49 | LINREG: max_val * max_val wraps modulo 2^64 for 32..63 bits, every submission of degree at least 2 is refused | `C49_lin_wrap` |
| C44 | freq_op computes 1 << num_bits in int: undefined from 32 bits on, and at 31 bits a negative value becomes an array length of about 2^64; the client accepts up to 63 bits | C44_width |
| C45 | A successful batch check (total weight = announced count) marks every row valid, so rows of weight 2 and 0 are counted together | C45_false_two_hot, C45_weight_partial |
| C46 | A successful batch check overwrites the matched flags: a row received by server 1 only is counted | C46_false_unmatched, C46_both_partial |
| C60 | pk_list in freq_op has total_inputs entries at server 0 but is filled with as many keys as server 1 announces | C60_bounds_iff |
| C47 | freq_op: after a successful batch check server 0 still sends the validity vector but server 1 does not read it; the bytes stay in the channel and the next AND/OR takes them for its own vector | C47_false_freq, C47_false_witness |
| C53 | make_pk takes the generator by value (client.cpp:55), so the caller's generator does not move on: the block printed as the key of submission i is drawn again as the value of submission i+1. Each server, which sees only one share, can read the next client's value off the key. | C53_false_int_sum, C53_false_max, C53_false_freq, C53_false_var, C53_false_lin (the first two features); C53_own_values_partial |
| C57 | the operations ignore the result of recv_in: when a client disconnects inside a record the rest of the local variable is the previous client's record, and the remaining iterations use it (INT_SUM counts a mixed value, OR of a single true answers false) | C57_false_int_sum, C57_false_witness, C57_false_xor_op, C57_false_or_witness, C57_false_bit; C57_boundary_int_sum_partial, C57_boundary_bit_partial |
| C55 | flint_randinit has no argument: check point, coefficients and the clients' own draws come from one fixed sequence. A client picks the triple so that any value and any square are accepted | C55_false_same_draws, C55_false_main, C55_false_forged, C55_false_answer; C55_uniform_partial |
| (remark) | the destructor of Checker (server.h:199-200) clears the global generator of the process. After a VAR or LINREG batch the next sync_randomX of server 1 draws from a cleared generator, outside FLINT's contract. In FLINT 2 this only releases GMP's part, unused for a 48 bit modulus. The model lets this draw be any residue | none |
| C62 | random_int is bound to a default-constructed engine in both processes (he_triples.cpp:69-77), server 1 skips 8 values: its factors are server 0's own draws | C62_false_shared_engine; C62_mask_partial |
| C63 | Server 1 sends its aggregate before the threshold is tested (server.cpp bit_sum, int_sum, xor_op, max_op), so server 0 learns the sum of a batch it reports invalid, e.g. one with a single matching client | C63_bit_sum_reveals, C63_int_sum_reveals |
| C64 | The masks of the share conversion in VAR and LINREG are uniform 64-bit words reduced modulo p (ot.cpp:148-149). 2^64 is not a multiple of p, so the words that server 1 receives depend slightly on server 0's share bits (126375227162625 of the 2^64 words per mask, one in 145966; a VAR batch of 1000 clients at 24 bits uses 72000 masks, so this is not negligible over a batch). Without such a word in the batch the views agree | C64_mask_bias, C64_unfair_count, C64_var_server1_words_partial |
| C64 | LINREG: for a key announced by server 1 that server 0 has not accepted, server 0 runs arrays that it never wrote to through the share conversion and the check with an all-zero packet (server.cpp:1081-1092). The packet's triple is zero, so the check shares it sends are unmasked: server 1 learns the low num_bits bits of heap memory of server 0 (proved for one feature, for all check points but six). VAR uses zeros instead | C64_lin_memory_leak |
| C65 | FREQ with the compiled-in `LAZY_PRECOMPUTE true` (server.cpp:45): server 0 makes both halves of every daBit and sends server 1 its half (correlated.cpp:33-58); server 1 then sends its bits masked with that half. Server 0 learns every client's vector. The comment at correlated.h:36 calls this insecure; the server has no switch for it | C65_freq_lazy_leak, C65_freq_lazy_values, C65_freq_lazy_false |
| C65 | Lazy daBits: the draw r = p - 2 is possible only for the bit 0, so server 1, which sees bp = 1, knows the bit (negligible probability) | C65_lazy_dabit_one |
| C66 | Three honest clients with the value 8388607 (23 bits, which client and server admit): the sum of squares exceeds p, STDDEV answers NaN and VAR a negative number; nothing warns of it | C66_false_wrap |
| C68 | Keys are chosen by the client and not authenticated: a submission under an honest client's key that arrives first at both servers replaces the honest one, and the answer does not depend on the honest value | C68_false_stolen_key |
| C68 | VAR, STDDEV, LINREG: the bound holds up to 23 bits and while the sums stay below the modulus; with 24 bits or larger sums a few clients can make the sums wrap (C41, C66) | C41_false_from_24, C66_false_wrap |
| C70 | The usage check asks for three arguments (`argc < 4`, client.cpp:1491) but the fourth is used: `std::string(argv[4])` is made from a null pointer | C70_false_three_arguments |
| C70 | Without a width `max_int` stays 0, and INTSUM, VAROP, STDDEVOP, LINREGOP, FREQOP reduce modulo it: division by zero | C70_false_no_width |
| C70 | The width is checked after `1ULL << num_bits` (client.cpp:1504-1507): undefined from 64 on, the error message is dead code. Also the line "linreg degree:" prints the width (client.cpp:1512) | C70_false_wide |
| C71 | The width is not part of the messages; servers started with a smaller width than the client drop submissions by the value of their random shares and, if at least half are left, answer with the sum of the rest | C71_false_narrower; C71_int_any |
| C72 | The servers do not compare their widths. With the smaller one at server 0, server 1 blocks for ever in `recv_DaBit_batch`; without one at server 1 (the argument is optional although `main` prints it as required), it reads leftover daBits as the validity of submissions and the answer is wrong | C72_false_smaller_at_0, C72_false_left_out, C72_false_larger_at_0, C72_false_witness |
| C73 | Only VAR and LINREG look at the result of a receive, and only at that of the packet. MAX stores a new key with a row that was never written when the client disconnects inside its submission; FREQ stores bits of an uninitialised buffer under a mixed key; LINREG compares uninitialised values with the bound before the check that drops the submission | C73_false_max, C73_false_max_witness, C73_false_lin, C73_false_freq; C73_max_boundary_partial, C73_freq_boundary_partial, C73_lin_machine, C73_lin_strict, C73_freq_machine |
| C74 | `send_out` (server.cpp:56-60) keeps the result of `send` in a `size_t`, so that `ret <= 0` is never true of an error; `send_maxshare`, `send_freqshare`, `send_linregshare` and the chunked batches add -1 to the byte count; no sender repeats a partial send and no caller compares the count with the length | C74_false_send_out, C74_false_keys, C74_false_max_share, C74_false_batch, C74_false_dabits, C74_false_short |
| C70 | FREQOP accepts widths up to 63, but the table of counts (client.cpp:1467) cannot be allocated from 60 on | C70_false_freq_wide |
| C75 | The validity vector that `freq_op` sends at server.cpp:1401 is read by server 1 only when the batch check has failed. Later operations read it as their own data: MAX/MIN as validity of its rows, a second FREQ as masked bits, so that its `recv_bool` gets a byte of masked bits. | `C75_false_max`, `C75_false_freq_twice`, `C75_false_freq_certain`, `C75_false_freq_masked`, `C75_false_witness`; `C75_sums_partial` proved for BIT_SUM and INT_SUM |
| C76 | A client that sends a query to one server only leaves the servers one query apart for ever: every later query of that operation is paired with its neighbour, finds no common key and is refused. Twelve bytes (an empty BIT_SUM at server 1) are enough. The same twelve bytes have every later INT_SUM refused. A stray BIT_SUM, INT_SUM, VAR, STDDEV or LINREG followed by AND, OR, MAX or MIN (or the other way round, and at either server) blocks both servers for ever: one waits for bytes, the other one in the OT. FREQ next to BIT_SUM, INT_SUM, VAR, STDDEV or LINREG blocks both in the same way, if the store holds the daBits that FREQ needs. Two different operations of the same kind (but for INT_SUM behind an empty BIT_SUM), FREQ next to AND, OR, MAX and MIN, and FREQ without the daBits at hand are not treated. | `C76_false_stray1`, `C76_false_stray0`, `C76_false_twelve_bytes`, `C76_false_twelve_bytes_int`, `C76_false_stray_other`, `C76_false_stray_freq1`, `C76_false_stray_freq0` |
| C77 | A single connection to one server can end it: a connection closed within the first 12 bytes (`initMsg` stays indeterminate, server.cpp:1515-1516), LINREG with degree 0 (`num_x = degree - 1` wraps, server.cpp:906-929), a BIT_SUM value byte that is no `bool` (server.cpp:304-310), a header without a first complete submission. The number of bytes received is never compared with the number expected. Also ending both servers at once: empty VAR and LINREG batches (C56), empty MAX and MIN batches and columns that all cancel (C39). | `C77_false_no_end`, `C77_false_at_once`, `C77_false_server0`, `C77_false_server1` |
| C79 | Memory is not given back: `b2a_ot` (correlated.cpp:305-340) never frees `xp`; `freq_op` shadows `shares` (server.cpp:1211 by 1241 and 1319), losing total·2^num_bits bytes per query, and keeps `accum`, `accum_other` when it refuses (1426); `linreg_op` releases three `new[]` arrays of each row with `delete` (1021-1023, 1102-1104, undefined), loses those of refused submissions (966-972) and `x_accum`, `y_accum` on RET_INVALID (1175-1178); server 0 never deletes the packets of keys server 1 does not announce; the first refill loses `other_dabit` (correlated.cpp:33-48), 32 MiB per bit. | `C79_false_refill`, `C79_false_freq`, `C79_false_var`, `C79_false_linreg`; exact losses in the `_partial` theorems |
| C79 | The arrays `uint64_t b[B+1]`, `a[B+1]` of `max_op` are on the stack and as large as the `max_inp` of the client; `freq_op` has one of 2^num_bits words. | `C79_false_stack` |
| C50 | The validity vector that a FREQ query leaves unread (see C47) shifts what server 1 reads of the next FREQ query. If that one passes the batch check as well (it does for some daBits), server 0 is left with nine bytes; they shift the next VAR or STDDEV query, and at the next refresh server 0 reads bytes of the sums in place of the new check point. All clients are honest. | `C50_false_after_freq` |
| C80 | The debugging clients take `prev_pk = pk_str.c_str()` and then assign `pk_str` (client.cpp:197-198, 337-338, 517-518, 718-719): the pointer dangles when it is read (215, 220, 350, 355, 526, 531, 727, 732). So the test for duplicate keys tests something else. `int_sum_invalid` only leaves the words of clients 0 and 1 unreduced (326-329): they can be in range, and are then counted by the servers but not by the printed answer. | `C80_false_undefined`, `C80_false_in_range` |
| C80 | `var_op_invalid` leaves the share of the square of client 2 unreduced (client.cpp:932-933): it can be in range, and client 2 is then counted by the servers but not by the printed answer. It lacks the test for more than 31 bits (833), so from 32 bits on it divides by zero (930, 933). With at most three submissions, all marked invalid by range, both servers check an empty batch and read entry 0 of an array of length 0. | `C80_var_partial`, `C80_false_undefined_var`, `C80_false_var_few` |
| C80 | `lin_reg_invalid` leaves the share of the label of client 1 and the share of the square of client 2 unreduced (client.cpp:1281-1282, 1288-1289): if they happen to be in range these clients are counted by the servers but not in the printed answer. It lacks the test for more than 31 bits (1172). With at most three submissions both servers read entry 0 of an array of length 0, and the program solves a singular system. | `C80_lin_partial`, `C80_false_undefined_lin`, `C80_false_lin_few` |
| C81 | precomp_x_clear (poly/poly_once.c:64-66) returns before it frees the coefficients when the point was one of the nodes, although precomp_x_init allocates them in that case too (30). Renewing a check point that is a 2N-th root of unity loses 16 bytes per node each time. tree_init with no points would not end (never asked for: sizes are powers of two) | C81_false, C81_size_zero; C81_session_partial gives the exact number |
| C82 | ~Checker (server.h:200) calls flint_randclear on the generator of the whole process, once per packet; nothing sets it up again, and sync_randomX and makeLocalDaBit go on drawing from it. With the FLINT versions known to me nothing visible happens (clearing frees the GMP state only, and draws below one word do not use it), but the interface forbids it | C82_false_twice, C82_false_draw; C82_exact |
| C83 | Nothing ties a client's two connections together: the servers take connections in the order of arrival, so that two clients that connect at the same time can be taken in opposite orders, and then both are refused. All listening sockets have SO_REUSEPORT, so that equal ports (also modulo 2^16: htons truncates) are no error: server 0 can get the share for server 1, or both shares of a client, or a query can wait for ever on the socket for server 1. A client that connects to the server port first is taken for server 1. server1_connect tries once, so the servers have to be started in order; a client started before server 1 is ready leaves a half query at server 0. | C83_false_overlap, C83_false_answers, C83_false_half, C83_false_same_port, C83_false_both_shares, C83_false_lost, C83_false_impostor, C83_false_early; what holds: C83_place_partial, C83_order_partial, C83_progress, C83_start, C83_answers_partial |
| C85 | `fft_interpolate` (poly/fft.c:40-43) keeps three arrays of 2N values on the stack: with 8 MiB the client dies from degree 512 on. The tables of roots are never released in the client (`clear_constants`, constants.cpp:26-30, leaves them), 32 N bytes. | `C85_stack`, `C85_degree` |
| C71 | FREQ submissions take one byte per 8 values: servers with 4 bits or more and a larger width than the client wait for bytes that do not come; narrower servers (up to 3 bits) drop the larger values and may still answer | C71_false_freq; C71_false_freq_narrower; C71_freq_any |
| C86 | std::cout keeps its default precision: variances, deviations and coefficients are printed with six significant digits, 1234321 as 1.23432e+06, although they are computed with 53 bits | C86_false_var; C86_double |
| C79 | `var_op` at server 0 does not look for repetitions among the announced keys: if server 1 announces a key twice which server 0 can use, both rows get the same packet (server.cpp:826-834) and it is deleted twice (842-849), which is undefined; `linreg_op` uses and deletes the arrays of the row twice (1079-1105). A server 1 that follows the code announces each key once; one that does not can end server 0 this way. | `C79_false_twice`, `C79_false_twice_linreg` |
