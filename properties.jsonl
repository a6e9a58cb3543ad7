{"id": "C01", "title": "Field constants are a prime field with a 2^19-th root of unity", "statement": "The configured modulus is a prime number, and the configured generator has multiplicative order exactly 2^19 modulo it (its 2^19-th power is 1, its 2^18-th power is -1).", "quantifier": "the one configured modulus and generator; primality quantifies over all potential divisors", "why_tests_cant": "A test can raise the generator to a power, but primality of a 48-bit number is a statement about every divisor; every other algebraic claim (inverses, interpolation, soundness) silently depends on it.", "anchors": ["constants.h:Int_Modulus_str", "constants.h:Int_Gen_str", "constants.h:twoOrder", "constants.cpp:init_constants"]}
{"id": "C02", "title": "Root-of-unity tables are correct for every supported size", "statement": "After init_roots(N) with N a power of two, roots holds the N distinct powers of a primitive N-th root, invroots their inverses position by position, and roots2 the 2N distinct powers of a primitive 2N-th root whose even positions are roots. This needs N <= 2^18: at N = 2^19 roots2 is all ones. Calling init_roots again with the same N changes nothing.", "quantifier": "for every power of two N <= 2^18, every index, and every sequence of init_roots calls", "why_tests_cant": "The tables have up to 2^19 entries and the order of the generator decides distinctness; tests sample a few sizes and never the largest one, where it breaks.", "anchors": ["constants.cpp:init_roots"]}
{"id": "C03", "title": "NextPowerOfTwo returns the least power of two strictly above n, or never returns", "statement": "For n < 2^31 the call returns the least power of two greater than n; for 2^31 <= n < 2^32-1 the call never returns (the 32-bit accumulator becomes 0); for n = 2^32-1 it returns 1.", "quantifier": "for every 32-bit unsigned n", "why_tests_cant": "The domain has 2^32 values and the failing region diverges, so a test either misses it or hangs.", "anchors": ["share.cpp:NextPowerOfTwo"]}
{"id": "C04", "title": "SplitShare reconstructs", "statement": "The two outputs of SplitShare are canonical residues and their sum is congruent to the input modulo the field modulus, for every random draw and every integer input, including negative and unreduced ones.", "quantifier": "for every integer value and every random draw", "why_tests_cant": "Tests see a handful of draws from a fixed seed; the claim is about all of them.", "anchors": ["share.cpp:SplitShare"]}
{"id": "C05", "title": "A single arithmetic share carries no information", "statement": "For every secret, as the random draw ranges over the field each of the two shares ranges over the field exactly once; hence the distribution of either server's share is the same for all secrets.", "quantifier": "for every pair of secrets and every share value, over the whole randomness space", "why_tests_cant": "Perfect secrecy is a counting statement over all 2^47 draws.", "anchors": ["share.cpp:SplitShare"]}
{"id": "C06", "title": "XOR shares of client values reconstruct, stay in range and hide the value", "statement": "For each bit width b <= 63, the two 64-bit shares the client forms for a value below 2^b are both below 2^b, XOR to the value, and for either server the share ranges over all b-bit words exactly once as the draw ranges over the b-bit words.", "quantifier": "for every width, value and raw 64-bit draw", "why_tests_cant": "Tests cover a few widths and random draws; the hiding half is a bijection claim.", "anchors": ["client.cpp:int_sum_helper", "client.cpp:bit_sum_helper", "client.cpp:var_op_helper"]}
{"id": "C07", "title": "Dealer Beaver triples are multiplicative", "statement": "Triples produced by NewBeaverTriple + BeaverTripleShares and by generate_beaver_triple_lazy satisfy (A0+A1)(B0+B1) = C0+C1 modulo the field modulus.", "quantifier": "for all random draws", "why_tests_cant": "A test checks sampled triples only.", "anchors": ["share.cpp:NewBeaverTriple", "share.cpp:BeaverTripleShares", "ot.cpp:generate_beaver_triple_lazy"]}
{"id": "C08", "title": "Locally dealt daBits are consistent", "statement": "makeLocalDaBit yields two records whose boolean parts XOR to a bit b and whose modular parts are canonical and add to the same b; this depends on the modulus being odd and on the adjusted draw range.", "quantifier": "for every bit and every draw in the adjusted range", "why_tests_cant": "The roll-over corner the code comments on has probability 1/p and is never hit by tests.", "anchors": ["share.cpp:makeLocalDaBit"]}
{"id": "C09", "title": "A locally dealt daBit share hides the bit (false for one value)", "statement": "Desired: server 0's record has the same distribution for both bit values. The code violates it: the record with modular part 1 arises only from bit 0, and the counts over the draw spaces differ. What does hold: for every modular part v in [2, p-1] both bit values have exactly one draw producing v.", "quantifier": "for every record value and both bits, over the whole draw space", "why_tests_cant": "A distributional claim; the deviation has weight 1/p.", "anchors": ["share.cpp:makeLocalDaBit"]}
{"id": "C10", "title": "edaBits are consistent", "statement": "makeLocalEdaBit produces n boolean pairs and a modular pair such that r0 + r1 is congruent to the sum of 2^i times the i-th reconstructed bit, for every n.", "quantifier": "for every length n and every sequence of draws", "why_tests_cant": "Lengths beyond the modulus size exercise reduction of the running power; tests use one small n.", "anchors": ["share.cpp:makeLocalEdaBit"]}
{"id": "C11", "title": "Receiving is independent of how the stream is fragmented", "statement": "If the peer's stream contains at least len further bytes and no error occurs, recv_in returns len and stores exactly the next len bytes in order, whatever positive fragment sizes the kernel delivers.", "quantifier": "for every message length < 2^32 and every fragmentation schedule", "why_tests_cant": "Fragmentation is chosen by the network; loopback tests almost always deliver whole messages.", "anchors": ["net_share.cpp:recv_in"]}
{"id": "C12", "title": "A receive error is reported to the caller (false mid-message)", "statement": "Desired: if recv fails, recv_in returns a negative value and no later byte is stored. The code stores the result in an unsigned variable: an error before the first byte does return -1, but an error after k > 0 bytes makes it step back one byte and carry on, so the call can return success with a corrupted buffer. End of stream mid-message returns 0.", "quantifier": "for every position of the error and every fragmentation", "why_tests_cant": "Socket errors in the middle of a message cannot be provoked deterministically in a unit test.", "anchors": ["net_share.cpp:recv_in"]}
{"id": "C13", "title": "Scalar and bit-vector messages round-trip", "statement": "Every send_X/recv_X pair for bool, bool batch of any length, 32- and 64-bit integers, uint64 batches, returns the sent value and consumes exactly the bytes sent; send_size/recv_size returns the value modulo 2^32.", "quantifier": "for all values and all batch lengths, with arbitrary bytes following in the stream", "why_tests_cant": "Batch lengths and values are unbounded; size truncation appears only above 2^32.", "anchors": ["net_share.cpp:send_bool_batch", "net_share.cpp:recv_bool_batch", "net_share.cpp:send_size", "net_share.cpp:recv_size", "net_share.cpp:send_uint64", "net_share.cpp:recv_uint64", "net_share.cpp:send_uint32", "net_share.cpp:send_int"]}
{"id": "C14", "title": "Field-element and composite messages round-trip", "statement": "Field elements below 2^64, batches of them across the 10^6 chunk boundary, CorShare batches, daBit batches across the 320000 chunk boundary, edaBit batches, Beaver triples, Boolean triples and client packets are received exactly as sent, and a batch receive consumes exactly the bytes of the matching send. A batch sent at once can be received element by element and vice versa.", "quantifier": "for all values, all batch sizes, all numbers of multiplication gates", "why_tests_cant": "Chunk boundaries lie at 10^6 and 320000 elements, beyond test sizes; linear regression relies on mixing batch send with single receive.", "anchors": ["net_share.cpp:send_fmpz", "net_share.cpp:send_fmpz_batch", "net_share.cpp:recv_fmpz_batch", "net_share.cpp:send_DaBit_batch", "net_share.cpp:recv_DaBit_batch", "net_share.cpp:send_ClientPacket", "net_share.cpp:recv_ClientPacket", "net_share.cpp:send_CorShare_batch", "net_share.cpp:send_EdaBit_batch"]}
{"id": "C15", "title": "Strings round-trip except the empty one", "statement": "A string of length 1 <= L < 2^32 is received as sent. The empty string is not: both calls report 0 and the receiver's variable keeps its previous value.", "quantifier": "for every string", "why_tests_cant": "Length classes are unbounded and the failing one is a corner nobody writes a test for.", "anchors": ["net_share.cpp:send_string", "net_share.cpp:recv_string"]}
{"id": "C16", "title": "Oblivious bit summation is exact modulo 2^64 and excludes invalid rows", "statement": "With modulus argument 0, sender result + receiver result equals the number of valid rows whose two bits differ, modulo 2^64; rows flagged invalid contribute nothing whatever their bits.", "quantifier": "for all share vectors, validity vectors and random masks", "why_tests_cant": "The masks are 64-bit random; wrap-around correctness must hold for all of them.", "anchors": ["ot.cpp:bitsum_ot_sender", "ot.cpp:bitsum_ot_receiver"]}
{"id": "C17", "title": "Oblivious bit summation is exact modulo a given modulus (false)", "statement": "Desired: with a non-zero modulus argument m the two results add up to the count modulo m. The code does not reduce the second message: when the mask is 0 and the sender bit is 1 it wraps to 2^64-1. It is exact when no mask is 0 on a valid row with sender bit 1 (and m <= 2^62), or when m divides 2^64.", "quantifier": "for all moduli, shares, validity flags and masks", "why_tests_cant": "The failing mask has probability 1/m per row.", "anchors": ["ot.cpp:bitsum_ot_sender", "ot.cpp:bitsum_ot_receiver"]}
{"id": "C18", "title": "Oblivious integer summation is exact modulo 2^64", "statement": "With modulus argument 0 and widths at most 64, for every row and column sender result + receiver result equals, modulo 2^64, the XOR of the two shares restricted to the column's bit width if the row is valid, and 0 otherwise.", "quantifier": "for all matrices of shares, widths, validity vectors, masks", "why_tests_cant": "Unbounded dimensions and 64-bit masks.", "anchors": ["ot.cpp:intsum_ot_sender", "ot.cpp:intsum_ot_receiver"]}
{"id": "C19", "title": "Boolean-to-arithmetic conversion by OT is exact for at most 48 bits (false above)", "statement": "share_convert returns canonical residues with r0 + r1 congruent to the XOR of the two shares, for every column of width at most 48. For a column of width 49 or more the conversion can be wrong: the subtraction modulus - 2^48 wraps. The client permits 31-bit values, whose 62-bit squares are in the failing range.", "quantifier": "for all share matrices, all widths, all masks", "why_tests_cant": "Whether it fails depends on the random mask and on bit 48 of the client's share.", "anchors": ["ot.cpp:intsum_ot_sender", "ot.cpp:intsum_ot_receiver", "correlated.cpp:b2a_ot", "server.cpp:share_convert"]}
{"id": "C20", "title": "Boolean Beaver triples are multiplicative", "statement": "The two servers' queues from gen_boolean_beaver_triples have equal length m and position by position satisfy (x0^x1)(y0^y1) = z0^z1.", "quantifier": "for every m and all random bits", "why_tests_cant": "Random bits; all 2^6 cases per position and every m.", "anchors": ["ot.cpp:gen_boolean_beaver_triples"]}
{"id": "C21", "title": "Jointly generated daBits are consistent", "statement": "The records generated by the two servers with generateDaBit are canonical and position by position the modular parts add up to the XOR of the boolean parts.", "quantifier": "for every N, all bits and masks", "why_tests_cant": "Masks range over the field.", "anchors": ["correlated.cpp:generateDaBit"]}
{"id": "C22", "title": "Single-bit conversion with daBits is exact", "statement": "Given consistent daBits, b2a_daBit_single returns on the two servers values whose sum is congruent to the XOR of the two input bits, entry by entry, and consumes exactly N daBits on each side.", "quantifier": "for every N, all bits and all consistent daBits, every message schedule", "why_tests_cant": "daBit values are random field elements.", "anchors": ["correlated.cpp:b2a_daBit_single"]}
{"id": "C23", "title": "Multi-bit conversion with daBits is exact for at most 31 bits", "statement": "b2a_daBit_multi is exact when every width is at most 31; a width of 32 or more makes the code shift a 32-bit int by 31 or more positions, which is undefined (or yields a wrong weight).", "quantifier": "for every N, width vector and inputs", "why_tests_cant": "Undefined behaviour need not show up in a test.", "anchors": ["correlated.cpp:b2a_daBit_multi"]}
{"id": "C24", "title": "Secret-shared AND and ripple-carry addition are exact", "statement": "Given consistent Boolean triples multiplyBoolShares reconstructs to the entrywise AND, and addBinaryShares reconstructs to z and carry with z + 2^n carry = x + y for every row width n, rows of different widths mixed.", "quantifier": "for all share vectors, widths, triples", "why_tests_cant": "Widths and row counts are unbounded, the triples random.", "anchors": ["correlated.cpp:multiplyBoolShares", "correlated.cpp:addBinaryShares"]}
{"id": "C25", "title": "The two correlated stores stay in lock-step and never run dry", "statement": "For any sequence of maybeUpdate, conversion and multiplication calls made in the same order on both servers, the stores have equal sizes, matching entries at equal positions, each entry is used at most once, and no pop happens on an empty queue.", "quantifier": "for all histories of store operations, lazy or joint generation, any batch size >= 1", "why_tests_cant": "Histories are unbounded; a one-off misalignment would corrupt every later answer.", "anchors": ["correlated.cpp:addDaBits", "correlated.cpp:checkDaBits", "correlated.cpp:getDaBit", "correlated.cpp:maybeUpdate", "correlated.cpp:addBoolTriples"]}
{"id": "C26", "title": "Validation circuits accept exactly the well-formed inputs", "statement": "CheckVar accepts (x,y) iff y = x^2 modulo p. CheckLinReg(d) accepts iff every listed product equals the corresponding input modulo p, in the layout x_0..x_{d-2}, y, x_i x_j (i<=j), x_i y; it has d(d-1)/2 + d-1 multiplication gates and no input is read out of range.", "quantifier": "for all inputs and all degrees d >= 2", "why_tests_cant": "The circuit size grows with d; tests use one or two degrees.", "anchors": ["circuit.h:CheckVar", "circuit.h:CheckLinReg", "circuit.h:Eval", "circuit.h:AddCheckMulEqual"]}
{"id": "C27", "title": "Wire sharing is linear", "statement": "If input shares and multiplication-gate shares add up to the true values, then after ImportWires on both servers every wire's two shares add up to the wire value computed by Eval.", "quantifier": "for every well-formed circuit and all shares", "why_tests_cant": "Quantifies over all circuits and sharings.", "anchors": ["circuit.h:ImportWires", "circuit.h:Eval", "circuit.h:GetMulShares"]}
{"id": "C28", "title": "The FFT evaluates and interpolates", "statement": "fft_interpolate with roots w^0..w^{n-1} returns the values of the coefficient polynomial at these roots; with the inverse roots and invert it returns the coefficients of the unique polynomial of degree < n through the points; evaluation after interpolation is the identity.", "quantifier": "for every power-of-two size and all inputs", "why_tests_cant": "All sizes and all vectors.", "anchors": ["poly/fft.c:fft_recurse", "poly/fft.c:fft_interpolate"]}
{"id": "C29", "title": "Precomputed single-point evaluation is Lagrange interpolation", "statement": "For distinct nodes, precomp_x_eval returns q(x) for the unique polynomial q of degree < n through the given values, for every x, including when x is one of the nodes.", "quantifier": "for every number of nodes, every point x and all values", "why_tests_cant": "x equal to a node has negligible probability in tests, and there the general formula would divide by zero.", "anchors": ["poly/poly_batch.c:tree_init", "poly/poly_batch.c:fast_evaluate", "poly/poly_batch.c:c_precomp_init", "poly/poly_once.c:precomp_x_init", "poly/poly_once.c:precomp_x_eval"]}
{"id": "C30", "title": "Honest submissions are always accepted", "statement": "If the client evaluates a circuit on inputs it accepts and builds its packets with share_polynomials, then the two servers' check passes, whatever the input sharing, the client's draws, the check point and the combination coefficients.", "quantifier": "for every circuit with fewer than 2^18 multiplication gates, all inputs, all randomness of all three parties", "why_tests_cant": "Completeness over all randomness, including check points that are roots of unity.", "anchors": ["client.h:share_polynomials", "server.h:Checker", "server.h:CorShareFn", "server.h:OutShare", "server.h:AddToZero"]}
{"id": "C31", "title": "Malformed submissions are rejected except for a small fraction of challenges", "statement": "For any pair of packets and input shares, honest or not, whose reconstructed input is rejected by the circuit, there are at most 2N check points outside of which exactly a 1/p fraction of the combination coefficient vectors accept.", "quantifier": "for every circuit, all adversarial packets and input shares; counting over all challenges", "why_tests_cant": "A counting claim over p^(k+2) challenges against an arbitrary adversary.", "anchors": ["server.h:Checker", "server.h:evalPoly", "server.h:OutShare", "server.h:randSum"]}
{"id": "C32", "title": "A server's view of an honest validation is independent of the client's data", "statement": "For every fixed check point and coefficients, each server's packet together with the messages it receives from the other server during validation is a bijective image of the client's randomness (the final share being determined), so its distribution does not depend on the accepted input.", "quantifier": "for every circuit and every accepted input, over the whole randomness space", "why_tests_cant": "Zero knowledge is a distribution statement.", "anchors": ["client.h:share_polynomials", "server.h:CorShareFn", "server.h:OutShare"]}
{"id": "C33", "title": "Both servers reach the same verdict on every submission", "statement": "The validity vector used for accumulation is identical on both servers in the variance and regression operations, for all packets, honest or not.", "quantifier": "for all submissions and schedules", "why_tests_cant": "Disagreement would need adversarial packets.", "anchors": ["server.cpp:validate_snips", "server.cpp:var_op", "server.cpp:linreg_op"]}
{"id": "C34", "title": "At most one submission per public key is used, and it is the first admissible one", "statement": "For each key the stored submission is the first in arrival order that passes the range checks; later submissions under the key have no effect on the result.", "quantifier": "for all submission sequences at either server, all operations", "why_tests_cant": "All interleavings of duplicates and out-of-range submissions.", "anchors": ["server.cpp:bit_sum", "server.cpp:int_sum", "server.cpp:xor_op", "server.cpp:max_op", "server.cpp:var_op", "server.cpp:linreg_op", "server.cpp:freq_op"]}
{"id": "C35", "title": "BIT_SUM returns the exact count over matched keys", "statement": "When the operation returns an answer it equals, modulo 2^64, the number of keys admitted at both servers whose two bits differ, for every map iteration order and message schedule; both sockets are empty afterwards.", "quantifier": "for all submission lists at the two servers, masks, iteration orders, schedules", "why_tests_cant": "Iteration order of the hash map and scheduling are not controlled by tests.", "anchors": ["server.cpp:bit_sum"]}
{"id": "C36", "title": "INT_SUM returns the exact sum over matched keys", "statement": "When the operation returns an answer it equals, modulo 2^64, the sum of the XORs of the two shares over keys admitted at both servers; every counted value is below 2^num_bits even for malicious clients; holds for every iteration order and schedule and leaves the sockets empty.", "quantifier": "for all submission lists, widths <= 63, masks, iteration orders, schedules", "why_tests_cant": "As above, plus malicious clients.", "anchors": ["server.cpp:int_sum"]}
{"id": "C37", "title": "AND/OR are right up to one-sided error", "statement": "The answer is determined by the XOR of the encodings over matched keys. With honest clients AND over all-true inputs is always true and OR over all-false inputs always false; in the other case the answer is wrong only if the clients' random encodings XOR to zero.", "quantifier": "for all inputs, encodings, iteration orders, schedules", "why_tests_cant": "The error event has probability 2^-64.", "anchors": ["server.cpp:xor_op", "client.cpp:xor_op_helper"]}
{"id": "C38", "title": "MAX/MIN never overshoot and are exact unless encodings cancel", "statement": "With honest clients the reported maximum is at most the true maximum and equals it unless the random words at the true maximum cancel; MIN symmetrically.", "quantifier": "for all inputs below B, encodings, iteration orders, schedules", "why_tests_cant": "Cancellation has probability 2^-64 and iteration orders are uncontrolled.", "anchors": ["server.cpp:max_op", "client.cpp:max_op_helper"]}
{"id": "C39", "title": "MAX/MIN terminates (false when all columns cancel)", "statement": "Desired: max_op returns for all inputs. The scan index is unsigned and the loop condition is always true: if no column differs (for instance zero submissions, or encodings that cancel) it reads out of bounds. Otherwise it terminates.", "quantifier": "for all aggregate vectors", "why_tests_cant": "Undefined behaviour triggered by degenerate batches.", "anchors": ["server.cpp:max_op"]}
{"id": "C40", "title": "VAR/STDDEV aggregates are exact and restricted to validated rows", "statement": "The two reconstructed sums are the sums, modulo p, of the values and squares over exactly the keys admitted at both servers whose SNIP check passed; equal to the integer sums when these are below p. The answer is then, up to the rounding of doubles (C66), the population variance of the counted values (or its root) whenever each counted row satisfies y = x^2.", "quantifier": "for all submissions, widths <= 24, randomness, iteration orders, schedules", "why_tests_cant": "Adversarial packets, all randomness, all orders.", "anchors": ["server.cpp:var_op", "server.cpp:accumulate", "server.cpp:validate_snips"]}
{"id": "C41", "title": "Accepted squares are integer squares for at most 23 bits", "statement": "If a submission's values are in range for num_bits <= 23 and the circuit equation holds modulo p then y = x^2 holds over the integers. From 24 bits on there are in-range pairs with y congruent to x^2 but different.", "quantifier": "for all widths and in-range values", "why_tests_cant": "The witness pair differs by a multiple of p.", "anchors": ["server.cpp:var_op", "circuit.h:CheckVar"]}
{"id": "C42", "title": "LINREG accumulates the normal equations", "statement": "The accumulators given to SolveLinReg are, modulo p, the count, the sums of x_i, of x_i x_j, of y and of x_i y over exactly the validated matched rows, each in the slot SolveLinReg expects; independent of iteration order, schedule and the uninitialised memory used for unmatched rows.", "quantifier": "for all degrees >= 2, submissions, randomness, iteration orders, schedules", "why_tests_cant": "Index arithmetic across three files for every degree.", "anchors": ["server.cpp:linreg_op", "circuit.h:SolveLinReg"]}
{"id": "C43", "title": "SolveLinReg returns the least-squares fit", "statement": "If the system is non-singular the rational solution computed satisfies the normal equations and minimises the sum of squared residuals over the rows that produced the accumulators, and is the unique minimiser.", "quantifier": "for all degrees and all data sets with a non-singular system", "why_tests_cant": "Optimality over all coefficient vectors.", "anchors": ["circuit.h:SolveLinReg"]}
{"id": "C44", "title": "FREQ returns the histogram of one-hot submissions", "statement": "With honest clients every bucket count is exact; when the individual check runs, exactly the matched rows whose reconstructed vector has exactly one set bit are counted (for vectors shorter than p).", "quantifier": "for all submissions, iteration orders, schedules, daBits", "why_tests_cant": "Adversarial rows of every weight.", "anchors": ["server.cpp:freq_op"]}
{"id": "C45", "title": "FREQ counts only one-hot rows (false under the batch check)", "statement": "Desired: every counted row is one-hot. Violated: the batch check only compares the total weight with the number of submissions, so a weight-2 row and a weight-0 row together pass and are both counted. What holds: under the batch check the total weight of counted rows equals the number of submissions.", "quantifier": "for all batches", "why_tests_cant": "Needs two colluding submissions.", "anchors": ["server.cpp:freq_op"]}
{"id": "C46", "title": "FREQ counts only keys received by both servers (false under the batch check)", "statement": "Desired: a row counts only if its key reached both servers. Violated: after a successful batch check all rows received by server 1 are marked valid, including ones server 0 had flagged as unmatched.", "quantifier": "for all batches", "why_tests_cant": "Needs a client that deliberately mismatches keys.", "anchors": ["server.cpp:freq_op"]}
{"id": "C47", "title": "Operations leave the inter-server channel synchronised (false for FREQ)", "statement": "After BIT_SUM, INT_SUM, AND/OR, MAX/MIN, VAR/STDDEV and LINREG every byte sent has been consumed by the peer, for every schedule, so operations compose. Violated by FREQ when the batch check succeeds: server 0 sends the validity vector but server 1 does not read it, and the next operation consumes the stale bytes.", "quantifier": "for all histories of operations and all schedules", "why_tests_cant": "Tests run one operation per process; the fault shows in the following operation.", "anchors": ["server.cpp:freq_op", "server.cpp:main"]}
{"id": "C48", "title": "The invalid threshold is exactly one half", "statement": "Server 0 reports an invalid batch iff twice the number of counted submissions is less than the announced number of submissions, in every operation, whatever the answer would have been.", "quantifier": "for all batches", "why_tests_cant": "The comparison is in floating point; the boundary case matters.", "anchors": ["server.cpp:INVALID_THRESHOLD"]}
{"id": "C49", "title": "Malicious clients cannot exceed the range in sums", "statement": "For every byte stream a client may send, each submission admitted at both servers contributes a value below 2^num_bits to INT_SUM and VAR values, and below 2^(2 num_bits) to squares.", "quantifier": "for all byte streams", "why_tests_cant": "Adversarial byte streams.", "anchors": ["server.cpp:int_sum", "server.cpp:var_op"]}
{"id": "C50", "title": "Cached precomputations always match the current check point", "statement": "After any history of operations and refreshes, every cached evaluator equals one freshly built for its size at the current check point, both servers hold the same check point, and a check point is used for at most 10^6 plus one batch of submissions.", "quantifier": "for all histories", "why_tests_cant": "The refresh triggers only after a million submissions.", "anchors": ["server.cpp:getPrecomp", "server.cpp:main", "server.cpp:sync_randomX", "server.h:CheckerPreComp"]}
{"id": "C51", "title": "Two-way exchanges cannot deadlock", "statement": "With do_fork the send-while-receive exchange used in every conversion completes for every message length, every socket buffer capacity >= 1 and every schedule; without do_fork it deadlocks as soon as both messages exceed the buffer.", "quantifier": "for all lengths, capacities and schedules", "why_tests_cant": "Depends on buffer sizes and scheduling.", "anchors": ["correlated.cpp:b2a_daBit_single", "correlated.cpp:multiplyBoolShares", "server.cpp:validate_snips"]}
{"id": "C52", "title": "Server execution is schedule-independent", "statement": "For any two server programs the pair of results and final channel contents do not depend on how the two processes are interleaved, and either all schedules terminate or none does.", "quantifier": "for all pairs of programs and all schedules", "why_tests_cant": "Schedules cannot be enumerated.", "anchors": ["server.cpp:main", "net_share.cpp:recv_in"]}
{"id": "C53", "title": "A client's key is independent of later values (false)", "statement": "Desired: the public key of a submission carries no information on any submitted value. Violated: make_pk receives the generator by value, so the block printed as the key of submission i is drawn again as the raw value of submission i+1.", "quantifier": "for all generator streams and positions", "why_tests_cant": "Each test run looks random; the correlation is across submissions.", "anchors": ["client.cpp:make_pk", "client.cpp:int_sum_helper"]}
{"id": "C54", "title": "Public keys are well-formed and collision-free", "statement": "pub_key_to_hex yields exactly 32 lower-case hexadecimal characters and is injective on 128-bit blocks.", "quantifier": "for all blocks", "why_tests_cant": "2^128 inputs; leading zeros are the usual bug.", "anchors": ["client.cpp:pub_key_to_hex"]}
{"id": "C55", "title": "The SNIP challenge is unpredictable to clients (false)", "statement": "Desired: the check point is not a function of public information. Violated: servers and clients initialise the same generator with the same fixed state, so the first check point equals the first draw any client makes, and the coefficients are fixed as well. What holds: each submission uses consecutive draws of its client, each in one place.", "quantifier": "for every generator", "why_tests_cant": "Determinism across processes is not visible in one run.", "anchors": ["server.cpp:sync_randomX", "constants.cpp:init_constants", "client.h:share_polynomials", "server.h:syncSnipSeeds"]}
{"id": "C56", "title": "An empty batch is harmless (false for VAR and LINREG)", "statement": "Desired: an operation whose submissions are all rejected at server 1 returns. Violated by VAR/STDDEV and LINREG: validate_snips dereferences the first circuit of an empty array. BIT_SUM, INT_SUM, AND/OR return normally.", "quantifier": "for all batches with no admitted submission", "why_tests_cant": "Undefined behaviour; only degenerate batches.", "anchors": ["server.cpp:validate_snips", "server.cpp:var_op"]}
{"id": "C57", "title": "A client that disconnects mid-batch does not corrupt data (false mid-record)", "statement": "If the stream ends at a record boundary after at least one record, exactly the complete records are used. If it ends inside a record after the key, the server stores that key with the tail of the previous client's value.", "quantifier": "for every crash point in the byte stream", "why_tests_cant": "Crash points inside a record need precise socket control.", "anchors": ["server.cpp:int_sum", "net_share.cpp:recv_in"]}
{"id": "C58", "title": "Homomorphic triple generation is multiplicative and complete", "statement": "With an ideal packed homomorphic encryption, generateTriples(n) returns exactly n triples on each server and position by position (a0+a1)(b0+b1) = c0+c1 modulo p, across batch boundaries.", "quantifier": "for every n, all draws", "why_tests_cant": "Batch size is 8192; tests stay below.", "anchors": ["he_triples.cpp:generateTriples"]}
{"id": "C59", "title": "End-to-end: an honest batch yields the plaintext aggregate the client program prints", "statement": "If the client program produces the byte streams for a batch with distinct keys and the two servers process them, then for every schedule and iteration order server 0 answers with the plaintext aggregate of the clients' values, and this is the answer the client program prints: the sum modulo 2^64 (BIT_SUM, INT_SUM), the conjunction or disjunction of the bits (AND, OR; unless the random words of the deciding submissions XOR to zero), the largest or smallest value (MAX, MIN; same exception), the population variance or deviation up to rounding, with both programs arriving at the very same double (VAR, STDDEV), the least-squares coefficients (LINREG) and the number of submissions per value (FREQ).", "quantifier": "for all values, draws of the client's generator, batch sizes below 2^32 (with the stated bounds on size times width), widths the operation accepts, iteration orders, schedules", "why_tests_cant": "Composition of all layers over all inputs.", "anchors": ["client.cpp:bit_sum_helper", "client.cpp:int_sum_helper", "client.cpp:xor_op", "client.cpp:max_op", "client.cpp:var_op", "client.cpp:lin_reg", "client.cpp:freq_op", "server.cpp:main"]}
{"id": "C60", "title": "FREQ stays within its buffers (false if the announced counts differ)", "statement": "Server 0 writes one key per row announced by server 1 into a table sized by its own announced count; it stays in bounds iff server 1's number of distinct keys does not exceed server 0's announced count.", "quantifier": "for all announced counts", "why_tests_cant": "Memory corruption is silent.", "anchors": ["server.cpp:freq_op"]}
{"id": "C61", "title": "The buffer of MAX/MIN holds all shares exactly when the batch has fewer than 2^32 words", "statement": "Every row written by max_op lies inside the allocated array iff num_of_inputs * (max_inp + 1) < 2^32; from there on the allocation size wraps and the operation is undefined at both servers.", "quantifier": "for all announced batch sizes and maxima", "why_tests_cant": "Needs batches of 2^32 words.", "anchors": ["server.cpp:max_op"]}
{"id": "C62", "title": "A server's triple factors are unknown to the other server (false)", "statement": "Desired: after generateTriples neither server can compute the other's shares A and B. Violated: both servers draw from a default-constructed engine and server 1 only skips random_offset = 8 values, so server 1's factors are values server 0 draws itself (A of triple j is server 0's mask of triple j+2, B of triple j is server 0's A of triple j+3). With unknown masks the product shares a server obtains are compatible with all factors of the other.", "quantifier": "for every engine, every ideal packed encryption, all keys, every n", "why_tests_cant": "The test checks the product relation only; that two processes draw the same numbers is not visible in one of them.", "anchors": ["he_triples.cpp:ArithTripleGenerator", "he_triples.cpp:generateTriples", "he_triples.h:random_offset"]}
{"id": "C63", "title": "A server that follows the protocol learns the aggregate and the keys only (BIT_SUM, INT_SUM, AND, OR, MAX, MIN)", "statement": "Let v be everything a server receives from the other one during the operation. BIT_SUM and INT_SUM: with the same keys announced in the same order, server 0's v depends on the submissions at server 1 through the sum only (also for malicious clients), and it does reveal the sum, even if the batch is then reported invalid; server 1's v depends on the submissions at server 0 through the accepted keys only, up to a shift of server 0's uniform masks. AND, OR, MAX, MIN: server 1's v depends on the accepted keys at server 0 only; for honest clients with distinct keys, two assignments of values with the same answer are related by a bijection of the clients' random words under which server 0's v is the same.", "quantifier": "for all submissions, keys, trailing bytes, widths below 64, iteration orders, masks, random words and schedules", "why_tests_cant": "A test compares outputs; that two different inputs lead to identical views for matching random draws is a statement about pairs of executions and all draws.", "anchors": ["server.cpp:bit_sum", "server.cpp:int_sum", "server.cpp:xor_op", "server.cpp:max_op", "ot.cpp:bitsum_ot_sender", "ot.cpp:intsum_ot_sender", "net_share.cpp:send_uint64"]}
{"id": "C64", "title": "A server that follows the protocol learns nothing about an honest client's value in VAR, STDDEV and LINREG beyond the sums", "statement": "Let v be everything a server receives from the other one and from the clients. Server 0: if the honest clients' values are replaced by others with the same field sums (VAR: of the values and of the squares; LINREG: of all features, labels and products), there is for each honest client a bijection of the random draws of its proof packet under which server 0's v is the same. Server 1: the honest clients' values may be replaced by any others; with a XOR of the drawn shares, a bijection of each client's proof draws and a bijection of server 0's masks, server 1's v is the same. Other clients may be malicious.", "quantifier": "for all numbers of honest clients, all values, shares, proof draws, masks, batch coefficients, other clients' submissions, arrival orders, iteration orders that depend on the keys only, and schedules", "why_tests_cant": "A test sees one execution; that two different secret inputs give identical views for matching random draws is a statement about pairs of executions and all draws, and a leak of one masked message does not change any output.", "anchors": ["server.cpp:var_op", "server.cpp:linreg_op", "client.cpp:var_op_helper", "client.cpp:lin_reg_helper", "ot.cpp:intsum_ot_sender", "client.h:share_polynomials"]}
{"id": "C65", "title": "A server that follows the protocol learns nothing about an honest client's value in FREQ beyond the histogram", "statement": "Let v be everything a server gets from the other one and from the clients, read or left unread. Server 0: if the honest clients' values are replaced by others with the same histogram and the shares it holds stay the same, there is a bijection of server 1's random draws and stored daBits under which v is the same. Server 1: the honest clients' values may be replaced by any others; with bijections of the clients' random arrays and of server 0's draws and stored daBits, v is the same. Other clients may be malicious.", "quantifier": "for all numbers of honest clients, all values, random arrays, draws, matching daBit stores, other clients' submissions, arrival orders, iteration orders and schedules", "why_tests_cant": "A test compares the histogram with the expected one; an implementation that hands one server every client's vector passes all such tests. Secrecy is a statement about pairs of executions and all draws.", "anchors": ["server.cpp:freq_op", "correlated.cpp:addDaBits", "correlated.cpp:b2a_daBit_single", "correlated.cpp:generateDaBit", "share.cpp:makeLocalDaBit", "server.cpp:LAZY_PRECOMPUTE", "client.cpp:freq_helper"]}
{"id": "C66", "title": "The floating-point answers of VAR and STDDEV are accurate and never NaN", "statement": "If the squares of the counted values add up to less than p, the double computed by server 0 as E[x^2]-E[x]^2 (or its root) is a number, not negative, zero exactly if all counted values are equal, and the variance (the square of the deviation) is off by at most 2^-49 of the mean square, hence by at most 2^-48 times the sum of squares in relation to the variance; no operation overflows or underflows. The bound on the sum of squares is needed: three honest clients with the value 2^23-1 make STDDEV answer NaN and VAR answer a negative number.", "quantifier": "for all lists of values (any number below 2^53), both ways a compiler may evaluate ex2 - ex*ex (with or without fused multiply-add)", "why_tests_cant": "Cancellation in ex2 - ex*ex shows only for particular values; tests compare a few printed digits.", "anchors": ["server.cpp:var_op", "client.cpp:var_op"]}
{"id": "C67", "title": "The first value of a client run is hidden from each server by the stream it is sent", "statement": "For each of the nine operations: replace the first value of a run (or, for LINREG, features and label of the first submission) by any other one. Then there is a measure-preserving change of the other draws of the client (a bijection on generators, and one on the randomness of the proof for VAR, STDDEV and LINREG) under which every byte sent to that server, and all other values of the run, stay the same. Hence one server alone learns nothing on the first value from what the client sends, although it learns the later ones from the keys (C53).", "quantifier": "for all generators, widths, numbers of submissions, first values and replacements, for each server", "why_tests_cant": "It is a statement on the distribution of the whole stream; a test sees single runs.", "anchors": ["client.cpp:bit_sum_helper", "client.cpp:int_sum_helper", "client.cpp:xor_op_helper", "client.cpp:max_op_helper", "client.cpp:var_op_helper", "client.cpp:lin_reg_helper", "client.cpp:freq_helper", "client.cpp:make_pk"]}
{"id": "C68", "title": "Dishonest clients change an answer by at most what as many honest ones could", "statement": "A round has n honest clients, whose keys nobody else uses, and arbitrary further submissions, in any order at either server. If the servers answer: BIT_SUM is the honest count plus some e, INT_SUM the honest sum plus some e, with e at most m resp. m*(2^bits-1), m the number of keys the others got accepted at both servers; m and e depend on the other submissions alone, not on the honest values. AND/OR with an honest client that decides the result gives that result for all but one of the 2^64 words this client may draw. MAX (MIN) is at least (at most) every honest value for all but one word of that client, and lies beyond all honest values only if the others' column is non-zero. VAR, STDDEV and LINREG give the variance or the least-squares fit of the honest data together with at most m further data points in range, for all but a fraction of at most (2N+1)*m/p of the choices of check point and coefficients made after everything was sent (N the size of the check polynomials, 2 for VAR). FREQ counts every honest client once at its value and changes the counts otherwise by a vector that depends on the others alone.", "quantifier": "for all honest values, all masks, all other submissions (of the wire format), all arrival orders at either server, all map orders and all randomness of the servers", "why_tests_cant": "The other submissions are adversarial and the claim compares the answer with every honest input at once.", "anchors": ["server.cpp:bit_sum", "server.cpp:int_sum", "server.cpp:xor_op", "server.cpp:max_op", "server.cpp:var_op", "server.cpp:linreg_op", "server.cpp:freq_op"]}
{"id": "C69", "title": "A proof passes always or almost never, and damaged proofs are refused", "statement": "Take any submission to VAR, STDDEV or LINREG: any reconstructed values and any two proof packets. If the values satisfy the circuit and the two packets add up to packets an honest client with these values makes for some draws, the submission passes the check at every check point and for all coefficients. In every other case there are at most 2N check points (4 for VAR) outside of which exactly one in p of the coefficient lists lets it pass. In particular an honest proof in which one number is off by one (a share of a product, of a value of h, of f(0) or of the triple's a) is refused, except for f(0) if g is the zero polynomial and for a if b is zero. For a whole batch: for all but a fraction (2N+1)*m/p of the choices of check point and coefficients, every counted submission carries such a proof.", "quantifier": "for all circuits of the accepted form, all values, packets, draws, histories of the root tables, check points and coefficients; for all batches and map orders", "why_tests_cant": "The debug client damages a few fixed numbers by one; that no other damaged or forged packet passes, and that no honest one is ever refused, is a statement on all packets and a count over p^(k+1) draws.", "anchors": ["server.cpp:validate_snips", "net_share.cpp:recv_ClientPacket", "client.h:share_polynomials", "server.h:Checker", "client.cpp:var_op_invalid", "client.cpp:lin_reg_invalid"]}
{"id": "C70", "title": "The client program does what its command line says (false for three arguments, without a width and for widths from 64 on)", "statement": "Started with a number of submissions, two ports, the name of an operation and a width that the operation takes (63 bits in general, 31 for operations with squares; LINREG may be followed by a degree from 2 on), all written as decimal numbers, the client runs exactly that operation with that many submissions, that width and that degree. A missing argument, a degree below 2 or a width above 31 for an operation with squares is reported and nothing is sent. An unrecognised operation sends a message which both servers pass over, staying in step. False: with exactly three arguments (which the check lets through) the fourth is read all the same; without a width INTSUM, VAROP, STDDEVOP, LINREGOP and FREQOP divide by zero; for widths from 64 on the shift comes before its check, so the error message can never be printed; FREQOP takes widths from 60 to 63 and then ends by an exception. Each numeric argument is read as white space, a sign or none, digits, and the rest is ignored.", "quantifier": "for all argument vectors, all decimal strings of numbers in the range of int, all operations, widths, degrees, generators and draws", "why_tests_cant": "Undefined behaviour of a shift, of a division by zero or of a string made from a null pointer may look like a working run on one machine and compiler; and the parse has to be right for every string.", "anchors": ["client.cpp:main", "client.cpp:bit_sum", "client.cpp:int_sum", "client.cpp:var_op", "client.cpp:lin_reg", "client.cpp:freq_op"]}
{"id": "C71", "title": "Client and servers may be started with different widths only if the servers' is the larger one (false for narrower servers, and for FREQ from 4 bits on)", "statement": "The width is an argument of each program and is not part of the protocol. If the submissions are in range for the client's width w and the servers use a width of at least w (up to 63 for INTSUM, 24 for VAR, STDDEV and LINREG), the round gives the answer which servers with the width w give, which for the client programs is what the client prints. For INTSUM and any two widths the answer is the sum of those submissions both of whose shares are below 2^nbits of the servers. False for narrower servers: two clients with 2 bits and the values 3 and 1, servers with 1 bit: one submission is dropped, the other is enough for an answer, and the answer is 1 instead of 4, without a warning. For FREQ the width decides the number of bytes of a submission. Up to 3 bits on both sides a row is one byte: the answer then has the number of submissions of every value below 2^nbits of the servers, values beyond are dropped, and for wider servers this is what the client prints followed by zeros. False for servers with at least 4 bits and more than the client: they read more bytes than the client sends and do not get through the batch. False for narrower servers here too: values 0, 3, 2, 1 with 2 bits at servers with 1 bit give [1, 1].", "quantifier": "for all pairs of widths, numbers of submissions, generators, draws, schedules, iteration orders and states of a session", "why_tests_cant": "Tests start the programs with matching widths; which submissions survive on narrower servers depends on the random shares.", "anchors": ["server.cpp:int_sum", "server.cpp:var_op", "server.cpp:linreg_op", "server.cpp:main", "client.cpp:main", "client.cpp:int_sum_helper", "server.cpp:freq_op", "client.cpp:freq_helper", "net_share.cpp:recv_bool_batch"]}
{"id": "C72", "title": "Two servers started with different widths notice it (false: they hang or answer wrongly)", "statement": "Started with the number 0 or 1, two ports and a width, all written as decimal numbers, a server runs with exactly this number and width; without a width it takes 0; any other server number is an error and fewer than three arguments print the usage. Two servers with the numbers 0 and 1 and the same width answer every session as C47 says. False for different widths, which the servers never compare: if server 0 has the smaller one (or none), server 1 waits for ever for daBits that server 0 does not make, whatever clients connect, and no answer is ever given; if server 1 has none, the daBits of server 0 stay unread and server 1 takes their first bit for the validity of the first submission, so that the AND of the single value true is false for half of the draws.", "quantifier": "for all argument vectors, decimal strings in the range of int, pairs of widths, lists of connections, draws, seeds and schedules", "why_tests_cant": "Tests start both servers with the same arguments; a hang is not told apart from slowness by a test, and the wrong answer depends on a random number drawn by the other server.", "anchors": ["server.cpp:main", "correlated.cpp:maybeUpdate", "correlated.cpp:addDaBits", "net_share.cpp:recv_DaBit_batch", "server.cpp:xor_op"]}
{"id": "C73", "title": "Clients that disconnect early leave MAX, VAR, LINREG and FREQ with the complete submissions (true of VAR, false of MAX, LINREG and FREQ)", "statement": "VAR and STDDEV: if the connection of the client ends anywhere after the fixed part of its first submission, both servers use exactly the complete submissions, and the answer is that of C36 for these. MAX and MIN: true if the connection ends between submissions; if it ends inside one, the key, as far as it arrived, is stored without a row, and a key stored so at one server and held by the other makes the server read memory never written. LINREG: an incomplete submission is never used, but unless everything except the last packet has arrived the server first compares values that were never written. FREQ: true, for whatever the memory holds, if the connection ends between submissions; otherwise one more entry is stored, made of the previous key, what arrived and what the memory held, and strictly reading this memory is undefined.", "quantifier": "for all byte streams, points at which a stream ends, announced totals, widths, numbers of features, contents of fresh memory, iteration orders and schedules", "why_tests_cant": "A test would have to cut a socket at every byte of every operation; what uninitialised memory holds in a test run says nothing about the next run.", "anchors": ["server.cpp:max_op", "server.cpp:var_op", "server.cpp:linreg_op", "server.cpp:freq_op", "net_share.cpp:recv_in", "net_share.cpp:recv_uint64_batch", "net_share.cpp:recv_bool_batch", "net_share.cpp:recv_ClientPacket"]}
{"id": "C74", "title": "A message is sent completely or the failure is reported (false of batches above a million, of MAX, FREQ and LINREG records, of partial sends and of send_out)", "statement": "Every sender of net_share.cpp and of the client, if each call of send takes the whole buffer, puts exactly the encoding that the matching receiver reads on the connection and returns its length. Numbers, strings, packets, correction shares, batches of at most a million field elements and of at most 320000 daBits: if each call takes everything or fails, the sender returns the length after sending all, or -1 after sending a proper prefix. False beyond that: if the first million of a longer batch cannot be sent the result is positive and the rest is sent all the same; a MAX record is sent without its key and the result is positive; a packet of which one call takes only a part is sent with bytes missing, the result is positive and the server waits; a server whose send_out fails goes on, because the result is stored in an unsigned variable before it is compared with 0, and the other server takes the keys that follow for the missing one.", "quantifier": "for all messages, and all sequences of outcomes of the calls of send (any part taken, or an error)", "why_tests_cant": "On a local socket every send takes the whole buffer; when a send fails or takes a part depends on the kernel and the network.", "anchors": ["net_share.cpp:send_fmpz_batch", "net_share.cpp:send_DaBit_batch", "net_share.cpp:send_ClientPacket", "client.cpp:send_maxshare", "client.cpp:send_freqshare", "client.cpp:send_linregshare", "client.cpp:send_to_server", "server.cpp:send_out"]}
{"id": "C75", "title": "After a FREQ query the servers answer the next query rightly (false of AND, OR, MAX, MIN and FREQ)", "statement": "After a FREQ query whose batch check succeeds, any number of BIT_SUM and INT_SUM queries and unknown messages are answered as if the FREQ query had not been there, for every schedule. For the other operations this is false: the validity vector that server 1 has not read stays in the socket; MAX and MIN take it for their own, count all submissions of server 1 and can report a wrong column (AND and OR: C47); in a second FREQ query server 1 reads the batch verdict from the stale vector or from the masked bits of server 0, and reaches undefined behaviour for certain when the first query had more than eight times as many keys as the second has bytes of masked bits, and otherwise unless up to seven random-looking bits are all 0.", "quantifier": "for all FREQ batches whose weights add up to the number of submissions, all following queries, all stores of daBits large enough, all draws, iteration orders and schedules", "why_tests_cant": "The repository's test programs make one query per run of the servers; whether the second query fails depends on random masks.", "anchors": ["server.cpp:freq_op", "server.cpp:max_op", "server.cpp:main", "correlated.cpp:b2a_daBit_single", "net_share.cpp:recv_bool"]}
{"id": "C76", "title": "A connection made to one server only does not affect the queries of others (false for queries)", "statement": "Connections with an unknown message type, made to either server alone and in any number, change no answer: every query is answered as without them, for every schedule. AND and OR, MAX and MIN, VAR and STDDEV may be mixed up between the servers: server 1 does the same for both, so that the query is answered as server 0 was asked. For queries the claim is false: after one query sent to one of the servers only (the twelve bytes of an empty BIT_SUM are enough) every following query of the same operation is refused, in every schedule, as long as no two of them share a key, because the servers pair each query with its neighbour and never notice. The same twelve bytes have every following INT_SUM query refused. A BIT_SUM, INT_SUM, VAR, STDDEV or LINREG query sent to one server only and followed by an AND, OR, MAX or MIN query, or the other way round, leaves both servers waiting for each other for ever, in every schedule and whatever comes later (provided that server 1 admits a submission and the width is not 0). The same holds for FREQ next to BIT_SUM, INT_SUM, VAR, STDDEV or LINREG, if the daBits FREQ needs are in the store.", "quantifier": "for all lists of queries of one operation (not FREQ), all pairs of a query that begins with an oblivious transfer and a query by messages only, all interspersed unknown messages, all server states in step, draws, iteration orders and schedules", "why_tests_cant": "Tests send every query to both servers; that no later query is answered any more is a statement about sessions of any length.", "anchors": ["server.cpp:main", "server.cpp:bit_sum", "server.cpp:int_sum", "server.cpp:xor_op", "server.cpp:max_op", "server.cpp:var_op", "server.cpp:linreg_op", "server.cpp:freq_op"]}
{"id": "C77", "title": "A client cannot stop a server (false)", "statement": "Whatever bytes a client sends to a server, the server goes on to the next connection. False: one connection to one server with fewer than the 12 bytes of the initial message, with a LINREG header of degree 0 (or too large, or cut off), with a BIT_SUM value byte other than 0 and 1, or with the header of BIT_SUM, INT_SUM, AND or OR and less than one submission, leads that server to undefined behaviour; it never gets past this connection, whatever the other server does and whatever queries came before. What holds: INT_SUM, AND and OR connections that carry the promised number of bytes are answered whatever the bytes are, and leave the servers in step.", "quantifier": "for all such byte strings, all preceding and following connections, all peers, queue contents, server states and schedules; for all rounds of arbitrary bytes", "why_tests_cant": "Tests send well-formed submissions; that arbitrary bytes are harmless, or that a given connection is fatal whatever the state and the peer, is a statement about all byte strings and all executions.", "anchors": ["server.cpp:main", "server.cpp:bit_sum", "server.cpp:int_sum", "server.cpp:xor_op", "server.cpp:linreg_op"]}
{"id": "C78", "title": "Over a whole session a server learns the answers and nothing else", "statement": "In any session of BIT_SUM, INT_SUM, AND, OR, MAX and MIN queries (and unknown messages), each server's complete view of the session, that is, every byte and every result of an oblivious transfer it receives from the other server, tells it nothing about the values beyond the answers. Server 1: for any two contents of the connections at server 0 with the same keys, malicious or not, there is a one-to-one change of server 0's masks, fixed before the masks are drawn, under which the views are equal. Server 0: its view is determined by its own connections, the keys and the aggregate of each query; if the clients are honest, for any two assignments of values with the same answers there is a one-to-one rearrangement of the clients' random words, query by query, under which the views are equal. For server 0 the session may also contain VAR, STDDEV and LINREG queries, with other clients who send anything beside the honest ones. The answer then includes the sums (of values and squares, or of all products of features and labels) from which the result is computed.", "quantifier": "for all lists of queries of any length and mixture, all batches, keys (also returning in several queries), all draws and masks, all server states in step (also with the check point renewed in between), all iteration orders that depend on the keys only (server 0, honest clients)", "why_tests_cant": "Privacy is a statement about pairs of sessions and distributions of views; a test sees one session.", "anchors": ["server.cpp:main", "server.cpp:bit_sum", "server.cpp:int_sum", "server.cpp:xor_op", "server.cpp:max_op", "ot.cpp:bitsum_ot_sender", "ot.cpp:intsum_ot_sender", "client.cpp:bit_sum", "client.cpp:int_sum", "client.cpp:xor_op", "client.cpp:max_op", "server.cpp:var_op", "server.cpp:linreg_op", "client.cpp:var_op", "client.cpp:linreg_op"]}
{"id": "C79", "title": "A server gives back the memory a query used", "statement": "When a query is over, a server holds exactly the memory it held before, apart from what it keeps on purpose (the daBits in store, the precomputed tables of the SNIP checker): every block taken with `new`, `new[]` or `malloc` is given back once, in the matching way, and no block is used after it was given back or given back twice. A long session therefore needs no more memory than a single query. The arrays on the stack fit it.", "quantifier": "for all sessions of any length, batch sizes, widths, keys, iteration orders, states of the heap and of the store, accepted and refused queries, both servers", "why_tests_cant": "A leak of a few bytes per row or of one array per query changes no answer; a test sees only the answer, and a mismatch of `delete` and `delete[]` is undefined whatever one run shows.", "anchors": ["server.cpp:bit_sum", "server.cpp:int_sum", "server.cpp:xor_op", "server.cpp:max_op", "server.cpp:var_op", "server.cpp:linreg_op", "server.cpp:freq_op", "correlated.cpp:CorrelatedStore::b2a_ot", "correlated.cpp:CorrelatedStore::addDaBits", "ot.cpp:bitsum_ot_sender", "ot.cpp:intsum_ot_sender"]}
{"id": "C80", "title": "The debugging clients: the servers leave out exactly the clients marked invalid", "statement": "A batch of the debugging client programs (bit_sum_invalid, int_sum_invalid, xor_op_invalid, max_op_invalid, var_op_invalid, lin_reg_invalid: some clients have a misspelled key, the key of the client before, a value or share out of range, a wrong square or product or a tampered packet) is defined for every number of submissions, and the two servers answer with the aggregate over exactly the clients that the program does not mark invalid, which is the answer it prints; they refuse the batch exactly if fewer than half of the clients are left.", "quantifier": "for all numbers of submissions, generator outputs, widths, server states in step, schedules and iteration orders", "why_tests_cant": "The programs are themselves the author's tests: a run shows one batch, reads freed memory that usually still looks right, and the words meant to be out of range depend on the draw.", "anchors": ["client.cpp:bit_sum_invalid", "client.cpp:int_sum_invalid", "client.cpp:xor_op_invalid", "client.cpp:max_op_invalid", "client.cpp:var_op_invalid", "client.cpp:lin_reg_invalid"]}
{"id": "C81", "title": "What a server keeps for checking packets does not grow", "statement": "A server can check any number of batches of VAR, STDDEV and LINREG and renew its check point any number of times: it never uses or releases a block that is not in use, and the memory it holds for checking (tables of roots, interpolation trees, coefficients) depends only on the circuit sizes it has met, not on the number of packets, batches or check points.", "quantifier": "for all sequences of checked batches and renewals of the check point, sizes (powers of two up to 2^18), packet counts, check points and states of the heap", "why_tests_cant": "The check point is renewed after a million packets only, and a test would have to hit one of a few roots of unity among 2^47 values to see a block lost.", "anchors": ["server.h:CheckerPreComp", "server.h:PreX", "server.h:BatchPre", "server.cpp:getPrecomp", "poly/poly_batch.c:tree_init", "poly/poly_batch.c:poly_batch_precomp_clear", "poly/poly_once.c:precomp_x_init", "poly/poly_once.c:precomp_x_clear"]}
{"id": "C82", "title": "A server draws from its generator only while that is set up", "statement": "The process-wide generator `seed` is set up by init_constants; every later draw from it (check points at server 1, lazily made daBits at server 0) finds it set up, and it is cleared at most once, at the end.", "quantifier": "for both servers and all sequences of checked batches, renewals of the check point and refills of the store", "why_tests_cant": "FLINT's generator keeps giving numbers after it was cleared, in the versions at hand; a test sees numbers either way.", "anchors": ["server.h:Checker::~Checker", "server.cpp:validate_snips", "server.cpp:sync_randomX", "constants.cpp:init_constants", "share.cpp:makeLocalDaBit"]}
{"id": "C83", "title": "A query reaches both servers, and both at the same place in their queues (false if clients overlap or ports agree modulo 2^16)", "statement": "If the ports on the command lines fit together (the two ends of each connection name the same 16-bit port; the port for server 1, the client port of server 0 and the client port of server 1 are different and not 0 modulo 2^16), then in every execution, with any number of runs of the client in any interleaving, server 0 takes nobody but server 1 for server 1, each server is reached by the connections meant for it only and by each once, and a run past both of its connects has reached both servers. If in addition each run of the client connects to both servers before the next one begins, and only when both servers are ready, then the k-th query of server 0 and the k-th query of server 1 come from the same run, no run is refused, nothing gets stuck, and every query is answered as it should be. Otherwise it is false: two overlapping runs can be taken in opposite orders, and both are refused; a run that starts before server 1 is ready leaves server 0 one query behind; client ports that agree modulo 2^16 are no error, and server 0 can get the share meant for server 1, or both shares; if server 0's two ports agree, a query can wait for ever on the socket meant for server 1; a client given the server port is taken for server 1; server 1 started before server 0 listens fails and does not retry.", "quantifier": "for all ports, all numbers of runs of the client, all interleavings of the system calls of all processes and all choices of the kernel among sockets sharing a port", "why_tests_cant": "Which connection lands in which queue depends on the interleaving of three or more processes and on the kernel's choice between sockets on one port; tests run one client at a time on fixed ports.", "anchors": ["server.cpp:bind_and_listen", "server.cpp:server0_listen", "server.cpp:server1_connect", "server.cpp:main", "client.cpp:main"]}
{"id": "C84", "title": "A deployment answers every run of the client with what that run prints", "statement": "Start two servers with the command lines `server 0 PORT0 LINK W` and `server 1 PORT1 LINK W` (three different ports, the same width), and let any number of runs of the client program follow, each with its own command line (number of submissions, PORT0, PORT1, operation, width, possibly degree), each connecting to both servers before the next one begins. Then both servers take the same runs in the same order, serve them all in every schedule without blocking or undefined behaviour, and for every run server 0 prints the very answer which that run of the client program prints, and this is the right statistic of the values that the run submitted; server 1 prints no answer. All operations may occur in any order; FREQ only as the last one (what follows it is C47, C75). The sizes are those each operation can take, and for AND, OR, MAX and MIN the random words of the deciding submissions must not XOR to zero.", "quantifier": "for all command lines of this form, all numbers and orders of runs, all operations and sizes within the stated limits, all random draws of clients and servers, all iteration orders of the hash maps and all schedules and interleavings of connects", "why_tests_cant": "A test runs one operation once on freshly started servers with one schedule; that the state left behind by any sequence of runs (check points, counters, cached tables, stores) never changes a later answer is a statement about all sequences.", "anchors": ["server.cpp:main", "client.cpp:main", "server.cpp:server0_listen", "server.cpp:server1_connect"]}
{"id": "C85", "title": "The client program gives back the memory it used (LINREG: up to degree 511)", "statement": "When the client program has uploaded its submissions, every block it took with `new`, `new[]` or `malloc` has been given back once, in the matching way, and none was used after that; the exception are the tables of roots of unity of VAR, STDDEV and LINREG, which are made at most once whatever the number of submissions. The arrays on the stack take 48 bytes per point of the packet polynomials and nothing per submission: with a stack of that size the program is defined, with a smaller one the first submission is its end. With a stack of 8 MiB LINREG can be uploaded exactly up to degree 511.", "quantifier": "for all operations, widths, degrees, numbers of submissions, states of the heap and sizes of the stack", "why_tests_cant": "A leak or a use after release changes no message; the size of the automatic arrays depends on the degree, and no test goes up to where they no longer fit.", "anchors": ["client.cpp:bit_sum_helper", "client.cpp:int_sum_helper", "client.cpp:xor_op_helper", "client.cpp:max_op_helper", "client.cpp:var_op_helper", "client.cpp:lin_reg_helper", "client.cpp:lin_reg", "client.cpp:freq_helper", "client.h:share_polynomials", "poly/fft.c:fft_interpolate", "constants.cpp:init_roots"]}
{"id": "C86", "title": "The printed answer can be read back: exactly for integers, truth values and histograms, to six digits for VAR, STDDEV and LINREG", "statement": "The text that server 0 and the client print as answer, read as a decimal number, is the answer for BIT_SUM, INT_SUM, MAX and MIN; `true` or `false` for AND and OR; for FREQ one line per value, in order, ending in the count; for LINREG one line from which every coefficient can be read together with its variable. A double is printed as a number off by at most 5 millionths, with its sign, zero only for zero, and exactly if it has at most six decimal digits. So the printed VAR is the variance up to 5 millionths (and the rounding of C66), the square of the printed STDDEV up to 11, a LINREG coefficient up to 5.1. More is false: for the values 0 and 2222 the variance 1234321 is computed exactly and printed as 1.23432e+06. In a deployment as in C84 server 0 prints, behind its label, the text that the client prints behind its own (LINREG: if the normal equations are solvable), and server 1 prints no answer.", "quantifier": "for all answers: 64-bit numbers, integers, lists of counts, real numbers, lists of coefficients, lists of submitted values; for the last part all sessions of C84", "why_tests_cant": "Exponent form, dropped zeros, carries of the rounding and negative exponents each need particular values; a test compares a few.", "anchors": ["server.cpp:main", "server.cpp:var_op", "server.cpp:linreg_op", "server.cpp:freq_op", "client.cpp:var_op", "client.cpp:lin_reg", "client.cpp:freq_op"]}
