{"id": "C01", "title": "Bit counting is exact", "statement": "count_bit returns exactly the number of one bits of its argument, in its 16-, 32- and 64-bit overloads.", "quantifier": "every 16-, 32- and 64-bit word", "why_tests_cant": "2^64 arguments; a test samples a few words and a wrong mask constant shows only on specific bit patterns.", "anchors": ["include/MTToolBox/util.hpp: count_bit(uint16_t)", "include/MTToolBox/util.hpp: count_bit(uint32_t)", "include/MTToolBox/util.hpp: count_bit(uint64_t)"]}
{"id": "C02", "title": "Last-one position", "statement": "calc_1pos(x) returns -1 exactly when x is zero; otherwise it returns the distance from the most significant bit of the least significant one bit of x (0 for the top bit, w-1 for the bottom bit).", "quantifier": "every 16-, 32- and 64-bit word", "why_tests_cant": "The equidistribution algorithm depends on this for every word it meets; 2^64 words cannot be enumerated.", "anchors": ["include/MTToolBox/util.hpp: calc_1pos (three overloads)"]}
{"id": "C03", "title": "calc_1pos never leaves defined behaviour", "statement": "No call of calc_1pos performs a signed overflow. (Found false: for the 32- and 64-bit overloads the word with only the top bit set, which is a documented example, negates the minimum signed integer; it is the only such word. The 16-bit overload is free of it.)", "quantifier": "every word; every overload", "why_tests_cant": "Ordinary test runs observe the wrapped value and never notice that the result rests on undefined behaviour.", "anchors": ["include/MTToolBox/util.hpp: calc_1pos(uint32_t)", "include/MTToolBox/util.hpp: calc_1pos(uint64_t)"]}
{"id": "C04", "title": "Bit reversal", "statement": "reverse_bit maps bit i to bit w-1-i and nothing else; applying it twice gives back the argument.", "quantifier": "every 32- and 64-bit word", "why_tests_cant": "2^64 words; LSB-oriented equidistribution is silently wrong if one of the swap masks is wrong for one bit position.", "anchors": ["include/MTToolBox/util.hpp: reverse_bit(uint32_t)", "include/MTToolBox/util.hpp: reverse_bit(uint64_t)"]}
{"id": "C05", "title": "floor2p", "statement": "floor2p(n) is the greatest power of two not exceeding n for every n>=1; for n=0 the recursion never reaches its base case.", "quantifier": "every natural number", "why_tests_cant": "The claim is about all n, and the failure at n=0 is a non-termination that a test can only observe as a hang.", "anchors": ["include/MTToolBox/util.hpp: floor2p"]}
{"id": "C06", "title": "get_range stays in the range and reaches all of it", "statement": "For start<=end the result of get_range lies in [start,end], every value of the range is produced by some input, and any block of end-start+1 consecutive inputs produces every value exactly once; for end<start the program exits instead of returning.", "quantifier": "every input word and every pair start, end whose length fits in an int", "why_tests_cant": "Range faults appear only for particular residues; all bounds and inputs are quantified.", "anchors": ["include/MTToolBox/util.hpp: get_range"]}
{"id": "C07", "title": "Lookup tables are the GF(2) span of the source vectors", "statement": "After fill_table on a zeroed table of 2^m entries, entry i is the XOR of the source vectors selected by the bits of i; hence entry (i xor j) = entry i xor entry j, and no source index beyond the bit length of i is read.", "quantifier": "every table size, every source table, every index", "why_tests_cant": "The table is a function of arbitrary vectors; linearity is a relation between all pairs of entries.", "anchors": ["include/MTToolBox/util.hpp: fill_table", "samples/MTGPDC/MTGP32search.hpp: fill_table, setUpTempering"]}
{"id": "C08", "title": "Vector conversion round trip", "statement": "toGF2Vec lists the bits from the most significant to the least significant, fromGF2Vec is its exact inverse in both directions.", "quantifier": "every word width, every word, every bit vector of that length", "why_tests_cant": "All words of all widths, both directions.", "anchors": ["include/MTToolBox/util.hpp: toGF2Vec", "include/MTToolBox/util.hpp: fromGF2Vec"]}
{"id": "C09", "title": "fromGF2Vec shifts by a negative amount on every call", "statement": "fromGF2Vec uses only shift amounts inside the word. (Found false: after the last bit it prepares a mask for position -1, i.e. executes a shift by -1, on every call; the value is discarded, so the returned word is unaffected on implementations where the shift does not trap.)", "quantifier": "every word width and every input vector", "why_tests_cant": "The shift result is discarded, so no test on outputs can see it.", "anchors": ["include/MTToolBox/util.hpp: fromGF2Vec", "include/MTToolBox/util.hpp: setBitOfPos", "include/MTToolBox/AlgorithmCalculateParity.hpp: search_parity_check_vector"]}
{"id": "C10", "title": "Single-bit access", "statement": "setBitOfPos writes exactly the addressed bit and leaves every other bit alone; getBitOfPos reads back what was written; only the low bit of the value argument matters.", "quantifier": "every width, word, position and value", "why_tests_cant": "All positions and all background patterns.", "anchors": ["include/MTToolBox/util.hpp: setBitOfPos", "include/MTToolBox/util.hpp: getBitOfPos"]}
{"id": "C11", "title": "LCM of polynomials", "statement": "LCM(lcm,x,y) yields the least common multiple: both arguments divide it and it divides every common multiple - also when the result variable is the first argument, as all callers do; the division by the gcd is exact.", "quantifier": "all pairs of GF(2) polynomials not both zero", "why_tests_cant": "An infinite set of polynomials and the universal property quantifies over all common multiples.", "anchors": ["include/MTToolBox/util.hpp: LCM", "include/MTToolBox/AlgorithmReducibleRecursionSearch.hpp: calcCharacteristicPolynomial"]}
{"id": "C12", "title": "Sequential counts down exactly once through its range", "statement": "After seeding with s, a Sequential generator returns s^mask, (s-1)^mask, ..., 0^mask - exactly s+1 values - and then throws underflow_error on every further call until it is seeded again; after re-seeding it starts afresh.", "quantifier": "every mask, every seed, every number of calls, every history of seed/get calls", "why_tests_cant": "Histories of arbitrary length; the seed can be as large as 2^64-1.", "anchors": ["include/MTToolBox/Sequential.hpp: next, reseed, getUint32, getUint64"]}
{"id": "C13", "title": "Exhaustive parameter search visits every parameter once", "statement": "Driving a search with Sequential(0, 2^18-1) as the xorshift example does presents every 18-bit parameter word exactly once before the end-of-sequence exception, over any split into several searches.", "quantifier": "every split of the run into search calls", "why_tests_cant": "Equality of a multiset with the full parameter space, for any interleaving of found results.", "anchors": ["samples/XORSHIFT/xorshift-4.cpp: main, setUpParam", "include/MTToolBox/Sequential.hpp"]}
{"id": "C14", "title": "MersenneTwister produces the MT19937 sequence", "statement": "For every seed and every number of calls the 32-bit outputs equal the tempered solution of the MT19937 recurrence x[k+624]=x[k+397] xor ((upper bit of x[k] | lower bits of x[k+1]) A) started from the seeded words, although the implementation keeps them in a 1024-word ring buffer.", "quantifier": "every seed, every step number", "why_tests_cant": "The ring buffer wraps only after 400 steps and interacts with the lag for ever; a finite prefix proves nothing about later wraps.", "anchors": ["include/MTToolBox/MersenneTwister.hpp: seed, next, temper, getUint32"]}
{"id": "C15", "title": "MersenneTwister never reads memory it has not written", "statement": "Every array access of seeding and generation is inside the 1024-word buffer and reads a word that was written before, after any history of seed and get calls.", "quantifier": "every history of seed / array-seed / get calls", "why_tests_cant": "A read of a stale word yields plausible numbers; only an invariant over all histories excludes it.", "anchors": ["include/MTToolBox/MersenneTwister.hpp: seed, seed_array, next"]}
{"id": "C16", "title": "MersenneTwister64 produces the MT19937-64 sequence", "statement": "For every seed and every number of calls the 64-bit outputs equal the tempered solution of the 64-bit recurrence with n=312, m=156 started from the seeded words; 32-bit outputs are the upper halves.", "quantifier": "every seed, every step number", "why_tests_cant": "As C14: in-place circular update for arbitrarily many steps.", "anchors": ["include/MTToolBox/MersenneTwister64.hpp: seed, next, temper, getUint32, getUint64"]}
{"id": "C17", "title": "Seeding never yields the absorbing zero state", "statement": "Whatever the seed value or key array, the seeded Mersenne Twister state (32- and 64-bit) has a non-zero effective state vector, so the output is never the constant-zero sequence.", "quantifier": "every 32/64-bit seed, every key array of every length >=1", "why_tests_cant": "One bad seed among 2^64 would suffice; arrays are unbounded.", "anchors": ["include/MTToolBox/MersenneTwister.hpp: seed, seed_array", "include/MTToolBox/MersenneTwister64.hpp: seed, seed_array"]}
{"id": "C18", "title": "getUint64 concatenates two consecutive 32-bit outputs", "statement": "MersenneTwister::getUint64 returns the next output in the high half and the one after it in the low half, and consumes exactly two outputs.", "quantifier": "every reachable state, any mix of 32/64-bit calls", "why_tests_cant": "Any interleaving of calls.", "anchors": ["include/MTToolBox/MersenneTwister.hpp: getUint64"]}
{"id": "C19", "title": "Tempering loses no information", "statement": "The output tempering of both Mersenne Twisters is a bijection on words and is GF(2)-linear.", "quantifier": "every word (pair of words for linearity)", "why_tests_cant": "2^64 words, 2^128 pairs.", "anchors": ["include/MTToolBox/MersenneTwister.hpp: temper", "include/MTToolBox/MersenneTwister64.hpp: temper"]}
{"id": "C20", "title": "The linearity test raises no false alarm", "statement": "TestLinearity accepts every generator whose output and transition are GF(2)-linear for its add; equivalently a rejection proves non-linearity.", "quantifier": "every generator, every linear transition and output, every state produced by seeding", "why_tests_cant": "Quantifies over all generators.", "anchors": ["include/MTToolBox/TestLinearity.hpp: operator()"]}
{"id": "C21", "title": "annihilate applies the polynomial to the state", "statement": "annihilate(g,p) replaces the state s of g by p(T)s, T being the transition of g; in particular if p is a multiple of the annihilating polynomial of s the state becomes zero, and the minimal polynomial of the new state divides q whenever p*q annihilates s.", "quantifier": "every linear generator, every polynomial, every state, whatever ring-buffer offsets the two internal copies have", "why_tests_cant": "All polynomials and states.", "anchors": ["include/MTToolBox/ReducibleGenerator.hpp: annihilate"]}
{"id": "C22", "title": "The dimension of equidistribution is computed correctly", "statement": "For every GF(2)-linear generator and every v, the k(v) returned is the greatest k such that the v leading bits of k consecutive outputs take every value as the state ranges over the space generated by the given state.", "quantifier": "every linear generator, every starting state, every accuracy v from 1 to the word width", "why_tests_cant": "The result is compared with a definition quantifying over all states of the generator; tests can only compare with tabulated values of a few generators.", "anchors": ["include/MTToolBox/AlgorithmEquidistribution.hpp: get_all_equidist, get_equidist, get_equidist_main, next_state, add, adjust"]}
{"id": "C23", "title": "The equidistribution computation terminates normally", "statement": "For every linear generator whose state space dimension is at most the declared size, the computation finishes after a bounded number of steps and never throws its logic errors (pivot errors, over theoretical bound); every array index it uses is in range.", "quantifier": "every linear generator and starting state", "why_tests_cant": "Termination and absence of exceptions over all inputs.", "anchors": ["include/MTToolBox/AlgorithmEquidistribution.hpp: get_equidist_main"]}
{"id": "C24", "title": "The defect sum", "statement": "get_all_equidist returns the sum over v=1..bit_length of floor(n/v)-k(v), every summand being non-negative; get_equidist returns k(bit_length) and the same sum without the summand v=bit_length.", "quantifier": "every linear generator and every bit length", "why_tests_cant": "As C22.", "anchors": ["include/MTToolBox/AlgorithmEquidistribution.hpp: get_all_equidist, get_equidist"]}
{"id": "C25", "title": "k(v) means uniform distribution of output tuples", "statement": "If the generator has full period then over one whole period every k(v)-tuple of v-bit values occurs equally often, except that the all-zero tuple occurs once less.", "quantifier": "every linear generator, every v", "why_tests_cant": "The period is 2^n-1 with n up to tens of thousands.", "anchors": ["include/MTToolBox/AlgorithmEquidistribution.hpp: class documentation"]}
{"id": "C26", "title": "Primitivity test", "statement": "isPrime(poly,degree,factors) with the complete list of prime divisors of 2^degree-1 returns true exactly for primitive polynomials of that degree (degree>=2), i.e. those for which x has multiplicative order 2^degree-1.", "quantifier": "every polynomial, every degree >=2, every complete factor list in any order, with repetitions", "why_tests_cant": "All polynomials of all degrees.", "anchors": ["lib/period.cpp: isPrime(poly,degree,Vec<ZZ>)"]}
{"id": "C27", "title": "Primitivity for Mersenne degrees", "statement": "isPrime(poly) returning true implies that poly is primitive, provided every tabulated exponent is a Mersenne exponent.", "quantifier": "every polynomial", "why_tests_cant": "All polynomials.", "anchors": ["lib/period.cpp: isPrime(poly), isMexp"]}
{"id": "C28", "title": "The Mersenne exponent table", "statement": "isMexp(p) returns true exactly for the exponents p up to 25964951 for which 2^p-1 is prime. (Found false: 24036583 is missing from the table.) Soundness - every accepted exponent is a Mersenne exponent - is proved for the part of the table that the kernel can check.", "quantifier": "every 32-bit exponent", "why_tests_cant": "Completeness concerns all values of the range, soundness is a primality statement about huge numbers.", "anchors": ["lib/period.cpp: mersenne_exponent, isMexp"]}
{"id": "C29", "title": "Parsing of decimal factor lists", "statement": "isPrime(poly,degree,char*[]) reads each string of decimal digits as the number it denotes, of any length, ignoring everything from the first non-digit, and stops at the NULL entry.", "quantifier": "every list of strings", "why_tests_cant": "Strings of unbounded length.", "anchors": ["lib/period.cpp: isPrime(poly,degree,const char*[])"]}
{"id": "C30", "title": "The built-in factor tables are correct", "statement": "Each built-in table prime_factors2_N_1 lists exactly the prime divisors of 2^N-1.", "quantifier": "every table and every entry (N = 128 ... 960)", "why_tests_cant": "Primality of numbers with up to hundreds of bits and completeness of a factorisation are mathematical facts, not observations.", "anchors": ["lib/AlgorithmPrimitivity.cpp: prime_factors2_*_1"]}
{"id": "C31", "title": "Factor extraction", "statement": "If hasFactorOfDegree(poly,d) returns true the polynomial left in poly is irreducible, has degree d and divides the original; if the original has an irreducible factor of degree d and d is more than half its degree, the result is true; it always terminates.", "quantifier": "every polynomial and every degree d>=1", "why_tests_cant": "All polynomials; termination.", "anchors": ["lib/period.cpp: hasFactorOfDegree"]}
{"id": "C32", "title": "Minimal polynomials from finitely many outputs are exact", "statement": "The polynomial that minpoly computes from 2*size output bits annihilates the whole infinite sequence of that output bit and divides every polynomial that does.", "quantifier": "every linear generator of state size at most size, every state, every output bit", "why_tests_cant": "Extrapolation from 2*size terms to all terms.", "anchors": ["include/MTToolBox/period.hpp: minpoly"]}
{"id": "C33", "title": "A successful recursion search yields maximal period", "statement": "If AlgorithmRecursionSearch::start returns true, the generator with the parameters left in it has the maximal period 2^n-1 from every non-zero state.", "quantifier": "every generator, every parameter source, every number of tries", "why_tests_cant": "The period is astronomically long.", "anchors": ["include/MTToolBox/AlgorithmRecursionSearch.hpp: start"]}
{"id": "C34", "title": "Search bookkeeping", "statement": "start(n) tries at most n parameter sets, stops at the first accepted one, increments the count once per try, and returns false only if all n were rejected.", "quantifier": "every sequence of parameter sets, every n, every sequence of calls", "why_tests_cant": "Arbitrary histories.", "anchors": ["include/MTToolBox/AlgorithmRecursionSearch.hpp: start, getCount"]}
{"id": "C35", "title": "Partial bit pattern search is optimal and deterministic", "statement": "Each step of AlgorithmPartialBitPattern leaves the generator with a tempering pattern whose defect sum is minimal among all 2^size patterns of the window, among those one of greatest weight, and returns that minimum; bits outside the window are not changed.", "quantifier": "every generator, every defect function, every window", "why_tests_cant": "All defect functions; the window loop is a search over all patterns.", "anchors": ["include/MTToolBox/AlgorithmPartialBitPattern.hpp: search_best_temper, operator()"]}
{"id": "C36", "title": "Window masks", "statement": "make_mask(start,size) selects exactly the bits start..start+size-1 counted from the chosen end of the word, clipped to the word, whenever bit_len equals the word width and at least one bit remains.", "quantifier": "every width, start and size", "why_tests_cant": "All shifts; UB at the excluded points.", "anchors": ["include/MTToolBox/AlgorithmPartialBitPattern.hpp: make_mask"]}
{"id": "C37", "title": "Best-bits search keeps a non-empty set of optimal candidates", "statement": "AlgorithmBestBits never indexes an empty candidate list or outside its shift table; the candidates kept after each bit are exactly the generated ones with the least defect.", "quantifier": "every generator, shift table, number of parameters and bit limit", "why_tests_cant": "All searches.", "anchors": ["include/MTToolBox/AlgorithmBestBits.hpp: operator(), search_best_temper, inRange, make_pattern"]}
{"id": "C38", "title": "XORSHIFT generators satisfy the linear-generator contract", "statement": "generate of the xorshift sample is GF(2)-linear for its add, its transition is invertible, so a non-zero state never reaches zero, isZero is exact.", "quantifier": "every state, every shift triple", "why_tests_cant": "2^128 states.", "anchors": ["samples/XORSHIFT/xorshift-5.cpp", "samples/XORSHIFT/xorshift-4.cpp"]}
{"id": "C39", "title": "xorshift128 initialisation", "statement": "xorshift128_init never produces the zero state; xorshift128_init_by_array determines the state from the key. (Second part found false: the key never reaches the generator state.)", "quantifier": "every seed, every key array", "why_tests_cant": "2^32 seeds; arbitrary arrays.", "anchors": ["samples/XORSHIFT/xorshift128.c: xorshift128_init, xorshift128_init_by_array, period_certification"]}
{"id": "C40", "title": "RMT satisfies the linear-generator contract", "statement": "generate of RMT64 commutes with add for any relative position of the two ring buffers; setZero/isZero agree with the linear zero; the state index stays in range.", "quantifier": "every pair of states with independent ring-buffer indices, every parameter", "why_tests_cant": "All states of unbounded size.", "anchors": ["samples/RMT/rmt64.hpp"]}
{"id": "C41", "title": "RMT setOneBit sets exactly the requested bit", "statement": "setOneBit(i) makes the state the i-th unit vector for every i below the state size. (Found false for positions 31..63 of each word: the shift is done in int.)", "quantifier": "every bit position", "why_tests_cant": "Undefined shifts usually produce a plausible value on one platform.", "anchors": ["samples/RMT/rmt64.hpp: setOneBit"]}
{"id": "C42", "title": "MTDC generator satisfies the linear-generator contract", "statement": "generate of MT32Search commutes with add for any ring-buffer offsets; the transition depends only on the effective mexp bits. isZero decides whether the effective state is zero (found false: it inspects the upper bits of the wrong word).", "quantifier": "every state, parameter and size", "why_tests_cant": "All states.", "anchors": ["samples/MTDC/mt2.cpp: MT32Search"]}
{"id": "C43", "title": "TinyMT satisfies the linear-generator contract", "statement": "generate of the tinymt32 search class is GF(2)-linear, depends only on the 127 effective bits, and isZero is exactly the zero test on them. seed(v) replaces the state by one that depends only on v, is zero exactly for v = 0, and keeps all parameters.", "quantifier": "every state and parameter set", "why_tests_cant": "2^127 states times 2^96 parameters.", "anchors": ["samples/TinyMTDC/tinymt32search.hpp: tinymt32"]}
{"id": "C44", "title": "TinyMT parameter enumeration", "statement": "setUpParam maps distinct (id, low 31 bits of the number) to distinct (mat1, mat2) pairs and ignores the top bit of the number.", "quantifier": "every id and number", "why_tests_cant": "2^64 inputs; injectivity is a statement about pairs.", "anchors": ["samples/TinyMTDC/tinymt32search.hpp: setUpParam"]}
{"id": "C45", "title": "SFMT satisfies the linear-generator contract", "statement": "generate of the SFMT search class commutes with add for arbitrary ring-buffer offsets and all output modes.", "quantifier": "every state, parameter set and mode", "why_tests_cant": "All states.", "anchors": ["samples/sfmtdc/sfmtsearch.hpp"]}
{"id": "C46", "title": "128-bit words behave as 128-bit integers", "statement": "The shifts, masks, bit access, last-one position and bit reversal of w128_t agree with the corresponding operations on 128-bit words.", "quantifier": "every 128-bit word, every shift amount below 128", "why_tests_cant": "2^128 words.", "anchors": ["samples/sfmtdc/w128.hpp", "samples/dSFMTdc/w128.hpp"]}
{"id": "C47", "title": "Period certification repairs the parity with one flip", "statement": "After periodCertification with a non-zero parity vector the inner product of the certified word and the parity vector is odd; at most one state bit changes, none if it was already odd; a second call returns 1 and changes nothing.", "quantifier": "every state and every non-zero parity vector", "why_tests_cant": "2^256 combinations.", "anchors": ["samples/sfmtdc/sfmtsearch.hpp: periodCertification", "samples/dSFMTdc/dSFMTsearch.hpp: periodCertification"]}
{"id": "C48", "title": "Odd parity guarantees the long period", "statement": "If the parity vector is orthogonal to the certified words of all states of the small invariant part, any state with odd parity has a non-zero component in the large irreducible part, so its period is a multiple of 2^mexp-1 (mexp a Mersenne exponent).", "quantifier": "every reducible linear generator, every state", "why_tests_cant": "Periods beyond enumeration.", "anchors": ["include/MTToolBox/AlgorithmCalculateParity.hpp: searchParity", "samples/sfmtdc/sfmtsearch.hpp: periodCertification"]}
{"id": "C49", "title": "The parity vector found is orthogonal to the small part", "statement": "When searchParity has collected as many independent words as the small part has dimensions, the vector it returns is orthogonal to the certified word of every state of the small part.", "quantifier": "every reducible linear generator", "why_tests_cant": "All generators and all states of a subspace.", "anchors": ["include/MTToolBox/AlgorithmCalculateParity.hpp: searchParity, calc_basis, addBase, search_parity_check_vector"]}
{"id": "C50", "title": "dSFMT fixed point", "statement": "The value returned by calc_fixpoint is the certified word of a state x in the large part satisfying x = T x + c_large, c_large the large component of the affine constant.", "quantifier": "every dSFMT parameter set for which the two factors are coprime and the large factor is coprime to x+1", "why_tests_cant": "All parameter sets and polynomials.", "anchors": ["samples/dSFMTdc/calc_fixpoint.cpp: calc_fixpoint", "samples/dSFMTdc/dSFMTsearch.hpp: setConst"]}
{"id": "C51", "title": "dSFMT satisfies the linear-generator contract and keeps its 52-bit form", "statement": "generate of the dSFMT search class commutes with add; words keep their upper 12 bits unchanged; isZero is exact (found false in weight mode 1: it looks at the wrong half of the previous word).", "quantifier": "every state, parameter set and mode", "why_tests_cant": "All states.", "anchors": ["samples/dSFMTdc/dSFMTsearch.hpp"]}
{"id": "C52", "title": "MTGP satisfies the linear-generator contract", "statement": "generate of the MTGP search class commutes with add; its 16-entry lookup tables implement the tempering and recursion matrices.", "quantifier": "every state, parameter set and source tables", "why_tests_cant": "All states and tables.", "anchors": ["samples/MTGPDC/MTGP32search.hpp"]}
{"id": "C53", "title": "Tempering patterns are written exactly under the mask", "statement": "setTemperingPattern(mask,pattern,i) replaces exactly the bits of the i-th tempering parameter selected by mask; repeating it with another pattern under the same mask leaves no trace of the first.", "quantifier": "every mask, pattern, parameter", "why_tests_cant": "2^96 combinations.", "anchors": ["samples/MTDC/mt2.cpp: setTemperingPattern", "samples/RMT/rmt64.hpp: setTemperingPattern", "samples/TinyMTDC/tinymt32search.hpp: setTemperingPattern"]}
{"id": "C54", "title": "Output truncation", "statement": "generate(v) returns the v leading bits of the next output (of the reversed output in reverse mode) and zeros below, advancing the state exactly as generate does.", "quantifier": "every generator state, every v from 1 to the word width", "why_tests_cant": "All states and widths.", "anchors": ["samples/*: generate(int)", "include/MTToolBox/EquidistributionCalculatable.hpp"]}
{"id": "C55", "title": "Characteristic polynomial by least common multiples", "statement": "calcCharacteristicPolynomial returns a polynomial that annihilates every output bit sequence of the generator and divides every polynomial doing so, provided the transition is invertible.", "quantifier": "every linear generator", "why_tests_cant": "All generators; infinite sequences.", "anchors": ["include/MTToolBox/AlgorithmReducibleRecursionSearch.hpp: calcCharacteristicPolynomial"]}
{"id": "C56", "title": "A successful reducible search yields a long period", "statement": "If AlgorithmReducibleRecursionSearch::start returns true, the stored factor is irreducible of degree mexp and divides the minimal polynomial of the output, and the period of the seeded state is a multiple of 2^mexp-1 when that number is prime; conversely a parameter set whose minimal polynomial has such a factor and degree below 2*mexp is accepted.", "quantifier": "every generator class, every parameter source, every number of tries", "why_tests_cant": "periods have thousands of binary digits and the parameter sources are unbounded", "anchors": ["include/MTToolBox/AlgorithmReducibleRecursionSearch.hpp:120-162"]}
{"id": "C57", "title": "Combined recursion and tempering search", "statement": "AlgorithmRecursionAndTempering::search, if it ends, leaves a generator whose transition has maximal period 2^stateBits-1 on nonzero states; the reported polynomial is its primitive characteristic polynomial, the reported weight its number of nonzero coefficients and the reported delta the total equidistribution defect of the final (tempered) generator; with the tempering searches keeping the recursion unchanged the result depends on no other part of the run.", "quantifier": "every generator family satisfying the linearity contract, every pair of tempering searches that keep the recursion, every parameter source and number of tries", "why_tests_cant": "infinite parameter sources, periods up to 2^19937-1", "anchors": ["include/MTToolBox/AlgorithmRecursionAndTempering.hpp:135-205"]}
{"id": "C58", "title": "The TinyMT creator prints exactly the maximal-period parameters", "statement": "tinymt32dc prints, for the numbers from the start number down to 0, one line for exactly those parameter numbers whose TinyMT has period 2^127-1 and whose best found tempering has delta within the limit, up to the requested count unless all are requested; the printed polynomial, weight and delta are the true ones of the printed parameters.", "quantifier": "every start number, user id, count and limit", "why_tests_cant": "2^32 parameter numbers, each with an orbit of 2^127-1 states", "anchors": ["samples/TinyMTDC/tinymt32dc.cpp", "samples/TinyMTDC/tinymt32search.hpp"]}
{"id": "C59", "title": "Reverse mode is used by the measurement", "statement": "When a tempering search puts a generator into reverse-output mode (LSB search), the delta it measures is the defect of the bit-reversed outputs.", "quantifier": "every generator of the samples and every state", "why_tests_cant": "the measured value is a plausible number in both modes", "anchors": ["include/MTToolBox/AlgorithmPartialBitPattern.hpp", "samples/TinyMTDC/tinymt32search.hpp: copy constructor"]}
{"id": "C60", "title": "MTGP isZero", "statement": "mtgp32::isZero returns true exactly when the effective state (all words but the unused low bits of the oldest) is zero.", "quantifier": "every reachable object", "why_tests_cant": "2^mexp states; the answer depends on an uninitialised member", "anchors": ["samples/MTGPDC/MTGP32search.hpp: isZero, constructors"]}
{"id": "C61", "title": "MTGP32dc prints exactly what it claims", "statement": "Every line printed by MTGP32dc describes a generator with period 2^mexp-1 from every non-zero effective state, with primitive characteristic polynomial; the printed weight is the number of terms of that polynomial, the printed delta the total equidistribution defect of the printed generator over its whole period, the tables carry the id given (plus the index of the line), and exactly count lines are printed.", "quantifier": "every accepted Mersenne exponent, id, seed, count", "why_tests_cant": "periods above 2^3216, all seeds", "anchors": ["samples/MTGPDC/MTGP32dc.cpp", "samples/MTGPDC/MTGP32search.hpp"]}
{"id": "C62", "title": "The id can be read off the MTGP tables", "statement": "After setUpParam the 32-bit id equals the high half of tbl[3] joined with bits 4-19 of tbl[2]; so generators with different ids have different parameter tables whatever the random source delivers.", "quantifier": "every id and every output of the parameter source", "why_tests_cant": "2^192 combinations", "anchors": ["samples/MTGPDC/MTGP32search.hpp: setUpParam"]}
{"id": "C63", "title": "Equidistribution of the 32/64-bit words of a block generator", "statement": "calc_SIMD_equidistribution ends without an exception, writes into veq[v-1] the dimension of equidistribution k(v) with v-bit accuracy of the stream of 32-bit (64-bit) words of the generator at every position of the stream, touches no other element, and returns the sum of the defects mexp/v - k(v).", "quantifier": "every block generator whose start and weight modes show windows of the word stream, in particular every sfmt object, every state, every v, both bit orders", "why_tests_cant": "states of hundreds to thousands of bits, every parameter set", "anchors": ["samples/sfmtdc/AlgorithmSIMDEquidistribution.hpp", "samples/sfmtdc/sfmtsearch.hpp: generate, setStartMode, setWeightMode", "samples/sfmtdc/sfmtdc.cpp:119-136"]}
{"id": "C64", "title": "Equidistribution of the 52-bit words of dSFMT", "statement": "calc_dSFMT_equidistribution ends without an exception, writes into veq[v-1] the dimension of equidistribution k(v) with v-bit accuracy of the stream of 52-bit words of the dSFMT object at every position of the stream, touches no other element, and returns the sum of the defects mexp/v - k(v).", "quantifier": "every dSFMT object, every state, every v up to 52", "why_tests_cant": "states of hundreds to thousands of bits, every parameter set", "anchors": ["samples/dSFMTdc/AlgorithmDSFMTEquidistribution.hpp", "samples/dSFMTdc/dSFMTsearch.hpp: generate, setStartMode, setWeightMode", "samples/dSFMTdc/dSFMTdc.cpp:121-128", "samples/dSFMTdc/calc_equidist.cpp:58-64"]}
{"id": "C65", "title": "anni isolates the large irreducible component", "statement": "anni(g) never executes anything undefined. It returns true exactly when the minimal polynomial of the lowest output bit of g has an irreducible factor of degree mexp; the object is then left, with unchanged parameters, in a state whose minimal polynomial under the state transition is exactly that factor, so that for a Mersenne prime 2^mexp-1 the state recurs after exactly 2^mexp-1 steps. If it returns false, the object has only been advanced by 2*bitSize() steps.", "quantifier": "every reducible generator whose state is determined by its outputs (SFMT) or by its certified words (dSFMT) and has fewer than 2*mexp bits; in particular every sfmt object in weight mode 4 and every dSFMT object in weight mode 2 with SL1 >= 1 and no exponent bits; every state", "why_tests_cant": "state spaces of 2^640 and more states and all parameter sets; the minimal polynomial of a state is not visible in finitely many outputs unless the theory is right", "anchors": ["samples/sfmtdc/Annihilate.cpp:13-66", "samples/dSFMTdc/Annihilate.cpp:13-78", "samples/sfmtdc/sfmtdc.cpp:111-115"]}
{"id": "C66", "title": "getLCMPoly is the least common annihilator", "statement": "getLCMPoly(lcm, g) terminates normally; a polynomial is a multiple of the result exactly if it is a multiple of the given polynomial and annihilates the lowest output bit (for dSFMT: the lowest bit of the certified word) of every state of the object's state space, and for dSFMT also every bit of the certified word of g itself. The result therefore divides every polynomial that annihilates the whole state space, and its degree is at most bitSize().", "quantifier": "every reducible generator in the sense of ReducibleGenerator.hpp with linear, injective state transition; every start polynomial that divides all annihilators; every object", "why_tests_cant": "all states of a space of hundreds to thousands of bits", "anchors": ["samples/sfmtdc/Annihilate.cpp:43-66", "samples/dSFMTdc/Annihilate.cpp:43-78"]}
{"id": "C67", "title": "The SFMT creator prints only correct parameter lines", "statement": "For each of its thirteen exponents, sfmtdc either prints the number of lines asked for or reports 'search failed' after fewer; it raises no exception, never returns -1 and does nothing undefined that affects the result. Every printed line has admissible parameters; an sfmt object built from the printed parameters and parity vector, filled with any words and certified, has a period that is a multiple of 2^mexp-1; its large component has exactly mexp dimensions; delta128 is exactly the sum of the equidistribution defects of the 128-bit words on that component; delta32 and delta64 are the sums for lower bounds of the dimensions of the 32-bit and 64-bit words that are short by at most 3 and 1.", "quantifier": "every accepted exponent, every sequence of random numbers, every content of uninitialised memory, every number of lines, every function that meets the documentation of NTL's MinPolySeq and kernel", "why_tests_cant": "each run takes hours and covers one random sequence; the period 2^607-1 and more cannot be observed", "anchors": ["samples/sfmtdc/sfmtdc.cpp:77-164", "samples/sfmtdc/sfmtdc.cpp:233-236", "samples/sfmtdc/sfmtsearch.hpp:170-234", "include/MTToolBox/AlgorithmReducibleRecursionSearch.hpp:95-140"]}
{"id": "C68", "title": "The dSFMT creator prints only correct parameter lines", "statement": "For each of its seven exponents, with or without --fixed, dSFMTdc either prints the number of lines asked for or reports 'search failed' after fewer; it raises no exception (calc_fixpoint included), never returns -1 and does nothing undefined that affects the result. Every printed line has admissible parameters; a dSFMT object built from the printed parameters, fixed point and parity vector, filled with any lung and any words with the exponent bits of 1.0 and certified, has a period that is a multiple of 2^mexp-1, even when the polynomial that getLCMPoly computed does not annihilate the whole state space; its large component has exactly mexp dimensions; delta52 is the sum of the defects for lower bounds of the dimensions of the 52-bit words on that component that are short by at most 1.", "quantifier": "every accepted exponent, no fixed shift or any from 1 to 63, every sequence of random numbers, every content of uninitialised memory, every number of lines, every function that meets the documentation of NTL's MinPolySeq, kernel and XGCD", "why_tests_cant": "each run takes hours and covers one random sequence; the period 2^521-1 and more cannot be observed", "anchors": ["samples/dSFMTdc/dSFMTdc.cpp:80-140", "samples/dSFMTdc/dSFMTdc.cpp:226-229", "samples/dSFMTdc/dSFMTsearch.hpp", "samples/dSFMTdc/calc_fixpoint.cpp", "samples/dSFMTdc/Annihilate.cpp:13-78"]}
{"id": "C69", "title": "Printed parameter lines are read back unchanged", "statement": "What getParamString prints for sfmt, dSFMT and RMT64, followed by nothing or by a comma and any text, is read back by the argument parsers of the tools (sfmtdc and dSFMTdc calc_equidist, calc_parity, calc_fixpoint; RMT calc_equidist) as exactly the same numbers. The parsers accept shorter texts too, but a text of fewer than 13 characters (for sfmt) always makes them read behind the end of the argument.", "quantifier": "all field values (non-negative below 2^31 for the decimal fields, all 32-bit and 64-bit words for the hexadecimal ones), all continuations of the text", "why_tests_cant": "the space of lines is astronomically large; leading zeros, width and base interact", "anchors": ["samples/sfmtdc/sfmtsearch.hpp:114-134", "samples/sfmtdc/calc_equidist.cpp:140-240", "samples/dSFMTdc/dSFMTsearch.hpp", "samples/RMT/rmt64.hpp"]}
{"id": "C70", "title": "sfmtdc calc_equidist reproduces the printed line", "statement": "Given a line printed by sfmtdc, calc_equidist with seed word 1 (the one sfmtdc itself starts from) prints exactly this line again, all three deltas included. With any other seed word (the upper half of the word the program uses is uninitialised) it either prints the same line or returns -1, the latter exactly if the seeded state has no part in the large component. For any admissible parameters the printed deltas depend on the parameters only: not on seed, trailing text or uninitialised memory; with -r they are those of the reversed output.", "quantifier": "all lines sfmtdc can print, all admissible parameters, all seed words, all uninitialised memory", "why_tests_cant": "the seed word contains 64 uninitialised bits and the parameters are random", "anchors": ["samples/sfmtdc/calc_equidist.cpp:27-72", "samples/sfmtdc/sfmtdc.cpp:88-140"]}
{"id": "C71", "title": "sfmtdc calc_parity prints a parity that certifies the period", "statement": "Given admissible parameters whose exponent is a Mersenne exponent not divisible by 128, calc_parity either reports that there is no factor of degree mexp, exactly if the seeded state has no part in the large component, or prints the same parameters with a parity vector for which every state after period_certification has a period that is a multiple of 2^mexp-1, whatever parity the argument named. For a line printed by sfmtdc and seed word 1 it always prints.", "quantifier": "all admissible parameters, all seed words, all lines of sfmtdc", "why_tests_cant": "the period is at least 2^607-1 and the claim is about every initial state", "anchors": ["samples/sfmtdc/calc_parity.cpp:18-23", "samples/sfmtdc/calc_parity.cpp:205-239"]}
{"id": "C72", "title": "dSFMTdc calc_equidist reproduces the printed line", "statement": "Given a line printed by dSFMTdc, calc_equidist with seed word 1 prints exactly this line again, although dSFMTdc applies one more annihilation before measuring. With any other seed word it prints the same line or returns -1, the latter exactly if the seeded state has no part in the large component. For any admissible parameters the printed sum depends on the parameters only.", "quantifier": "all lines dSFMTdc can print, all admissible parameters, all seed words, all uninitialised memory", "why_tests_cant": "the seed word contains 64 uninitialised bits and the parameters are random", "anchors": ["samples/dSFMTdc/calc_equidist.cpp:27-74", "samples/dSFMTdc/dSFMTdc.cpp:98-134"]}
{"id": "C73", "title": "dSFMTdc calc_fixpoint and calc_parity complete a parameter set", "statement": "For admissible parameters calc_fixpoint reports an error exactly if the seeded state has no part in the large component, and otherwise prints the same parameters with a word that is the lung of a state which the recursion carries to itself up to the small component. calc_parity on a text with such a word prints the same parameters and the same fixed point with a parity vector for which every state after period_certification (words with the exponent bits of 1.0) has a period that is a multiple of 2^mexp-1. Run one after the other, whatever the seeds, they give such a set. On a line of dSFMTdc with seed word 1 both always print.", "quantifier": "all admissible parameters, all seed words, all uninitialised fields, all kernel bases and Bezout coefficients", "why_tests_cant": "the period is at least 2^521-1 and the claim is about every initial state", "anchors": ["samples/dSFMTdc/calc_fixpoint_main.cpp:160-237", "samples/dSFMTdc/calc_parity_main.cpp:179-216", "samples/dSFMTdc/calc_fixpoint.cpp:16-50"]}
{"id": "C74", "title": "AlgorithmReducibleEquidistribution measures the component of the given factor", "statement": "For a linear generator (also with a singular transition), any state of it and any irreducible factor f of degree mexp >= 2 of the minimal polynomial of its outputs, get_all_equidist and get_equidist of AlgorithmReducibleEquidistribution(rg, f, bitLen, mexp) return normally, deliver for each v the largest k such that the component belonging to f (the states generated by rg whose outputs satisfy the recurrence f) is k-dimensionally equidistributed with v-bit accuracy, and the sum of the differences to floor(mexp/v). If the state space has fewer than 2*mexp bits the component and f do not depend on the state.", "quantifier": "all linear generators, all states, all irreducible factors, all 1 <= bitLen <= w", "why_tests_cant": "equidistribution is a statement about 2^mexp states and the claim is about every generator", "anchors": ["include/MTToolBox/AlgorithmReducibleEquidistribution.hpp:73-107"]}
{"id": "C75", "title": "RMT calc_equidist prints the given parameters and the defects of the large component", "statement": "On a parameter line with mexp >= 65 and pos in range, calc_equidist of the RMT sample executes nothing undefined and throws nothing; it fails exactly if the minimal polynomial of the lowest output bit after seed(1234) has no irreducible factor of degree mexp; otherwise it prints the line (unused mask bits cleared), and the table and delta are the dimensions of equidistribution of the large component and the sum of the defects relative to mexp, which depend on the parameters only.", "quantifier": "all parameter lines, all contents of uninitialised memory", "why_tests_cant": "equidistribution is a statement about 2^mexp states; parameters are arbitrary 64-bit words", "anchors": ["samples/RMT/calc_equidist.cpp:11-71", "samples/RMT/rmt64.hpp:82-211"]}
{"id": "C76", "title": "RMT calc_period states a true lower bound of the period", "statement": "On a parameter line with a Mersenne exponent mexp >= 65 and pos in range, calc_period of the RMT sample prints 'period >= 2^mexp-1' exactly if the minimal polynomial of the lowest output bit after seed(1234) has an irreducible factor of degree mexp, and then every period of the output after seed(1234), also after a pre-period, is a multiple of 2^mexp-1.", "quantifier": "all parameter lines, all contents of uninitialised memory", "why_tests_cant": "the period is at least 2^89-1", "anchors": ["samples/RMT/calc_period.cpp:11-47"]}
{"id": "C77", "title": "AlgorithmReducibleRecursionAndTempering::search delivers a consistent result", "statement": "For every family of reducible linear generators whose setParityValue leaves the state alone, a parameter source that does not end and tempering searches that only temper, whenever search returns it returns true without exception or undefined behaviour; getIrreducibleFactor() is an irreducible factor of degree mexp of the minimal polynomial of the lowest output bit, getParity() is a non-zero vector orthogonal to the certified words of the small component, and getDelta() is the sum of the defects of the large component with the final tempering, relative to bitSize(). If setParityValue writes into the state, as RMT64Search does, this can fail.", "quantifier": "all families of reducible generators, all parameter sources, all tempering searches within their contract", "why_tests_cant": "the claim is about every generator class and every random number sequence", "anchors": ["include/MTToolBox/AlgorithmReducibleRT.hpp:126-202", "samples/RMT/rmt64.hpp:117-124"]}
{"id": "C78", "title": "Mersenne Twister streams have least period exactly 2^19937-1", "statement": "After any legal seeding call on a MersenneTwister or MersenneTwister64 object (seed(v) for every v, array seeding for every non-empty key, whatever the object contained before), the infinite stream of getUint32 results and the infinite stream of getUint64 results both have least period exactly 2^19937-1, from the first output on: shifting the stream (or any tail of it) by N leaves it unchanged if and only if 2^19937-1 divides N.", "quantifier": "all object contents, all seeds, all keys, all tails, all shifts N", "why_tests_cant": "the period has 6002 decimal digits; no run can observe it, and the claim covers every seed", "anchors": ["include/MTToolBox/MersenneTwister.hpp:139-308", "include/MTToolBox/MersenneTwister64.hpp:143-318"]}
{"id": "C79", "title": "Mersenne Twister outputs are 623- and 311-dimensionally equidistributed over the full period", "statement": "After any legal seeding call, in any full period of MersenneTwister::getUint32 results every tuple of 623 consecutive 32-bit words occurs exactly twice, except the zero tuple, which occurs once; in any full period of MersenneTwister64::getUint64 results every tuple of 311 consecutive 64-bit words occurs exactly 2^33 times, except the zero tuple, which occurs once less.", "quantifier": "all object contents, all seeds and keys, all starting points of the period, all tuples", "why_tests_cant": "counting needs the whole period of 2^19937-1 outputs", "anchors": ["include/MTToolBox/MersenneTwister.hpp:139-308", "include/MTToolBox/MersenneTwister64.hpp:143-318"]}
{"id": "C80", "title": "The TinyMT reference code: one-to-one steps, seeding never leaves a zero state and loses no seed", "statement": "For the reference C code tinymt32/tinymt64 used by the tests: for every parameter set (mat1, mat2, tmat) next_state is one-to-one on the effective state (the 127 bits left when the top bit of the first word is ignored) and depends on nothing else; after tinymt32_init / tinymt64_init with any seed, and after init_by_array with any key, the effective state is not zero and never becomes zero after any number of steps; different seeds give different effective states (tinymt32) and different words in status (tinymt64; that this is weaker is shown by C127).", "quantifier": "all parameter sets, all struct contents, all 32-/64-bit seeds, all keys of any length, any number of steps", "why_tests_cant": "2^64 seeds times all parameter sets times unbounded keys; the claim 'never zero' is about infinite executions", "anchors": ["test/tinymt32.c:44-145", "test/tinymt64.c:44-129", "test/tinymt32.h:70-90", "test/tinymt64.h:70-87"]}
{"id": "C81", "title": "The Tiny32 and Tiny64 test generators have least period exactly 2^127-1", "statement": "For objects of the test classes Tiny32 and Tiny64 (their fixed parameters) with any seed, and for any struct with these parameters and a non-zero effective state, the stream of generated words has least period exactly 2^127-1, from every time on, with either of the two tempering variants the header can be compiled with.", "quantifier": "all seeds, all non-zero effective states, both settings of LINEARITY_CHECK, all tails and shifts", "why_tests_cant": "the period has 39 digits", "anchors": ["test/test_generator.hpp:18-160", "test/tinymt32.h:70-181", "test/tinymt64.h:70-167"]}
{"id": "C82", "title": "The floating point outputs of the TinyMT reference code are exact and lie in their intervals", "statement": "For every struct and in every rounding mode: generate_float / generate_double return exactly floor(u / 2^8) / 2^24, floor(u / 2^11) / 2^53 of the integer output u, in [0,1); the 1-2 variants return 1 + floor(u / 2^9) / 2^23 (1 + floor(u / 2^12) / 2^52), in [1,2); the 01, OC, OO variants lie in [0,1), (0,1], (0,1) and are the stated exact numbers. tinymt32_generate_floatOC advances the state twice. tinymt32_generate_32double returns u / 2^32 in [0,1); its documentation says (0,1], which fails: zero is returned.", "quantifier": "all struct contents, both settings of LINEARITY_CHECK, every rounding function that leaves representable numbers alone", "why_tests_cant": "end points of the intervals are met with probability 2^-23 to 2^-53; rounding modes are not varied by tests", "anchors": ["test/tinymt32.h:119-251", "test/tinymt64.h:113-222"]}
{"id": "C83", "title": "The fixed xorshift generators have period 2^128-1 and the sample programs report it", "statement": "The generators of xorshift-1.cpp/xorshift-2.cpp (5,14,1) and xorshift-5.cpp/xorshift128.c (20,11,7), from every non-zero state (in particular from every seed, and after xorshift128_init and xorshift128_init_by_array): the stream of words has least period exactly 2^128-1; within one period every non-zero 4-tuple of consecutive words occurs exactly once and the zero tuple never; every non-zero state is reached. xorshift-1.cpp prints degree 128 and 'period is 2^128 -1.'; xorshift-2.cpp and xorshift-5.cpp print the exact equidistribution dimensions over the whole state space; both parameter sets are in the list printed by xorshift-4.cpp.", "quantifier": "all non-zero states, all seeds, all keys, all 4-tuples, all tails and shifts", "why_tests_cant": "the period has 39 digits and the claim is about all tuples and all seeds", "anchors": ["samples/XORSHIFT/xorshift-1.cpp:14-46", "samples/XORSHIFT/xorshift-2.cpp:13-74", "samples/XORSHIFT/xorshift-5.cpp:13-75", "samples/XORSHIFT/xorshift128.c:11-107"]}
{"id": "C84", "title": "xorshift-3.cpp lists exactly the (a,b,c) with maximal period, each once, with the exact delta", "statement": "The exhaustive search program xorshift-3.cpp terminates (by the exception of its parameter source, which it catches) and prints exactly those shift triples (a,b,c) below 32 for which every non-zero state of x^(x<<a), ^(>>b), w^(w>>c) has period 2^128-1, each exactly once, in decreasing order of the parameter word, each with the exact total dimension defect over the whole state space; the published triple (5,14,1) is among them; the result agrees with the part of xorshift-4.cpp's result that belongs to its pattern 5.", "quantifier": "all 2^15 triples, all non-zero states, any number of tries per call, any fuel above 2^15", "why_tests_cant": "periods of 39 digits cannot be observed; completeness is a statement about everything that is not printed", "anchors": ["samples/XORSHIFT/xorshift-3.cpp:14-130"]}
{"id": "C85", "title": "The MT19937 class of mt1.cpp is the published generator and the program prints its exact equidistribution", "statement": "For every seed and whatever the memory contained, an object MT19937(v) of samples/MTDC/mt1.cpp delivers the published MT19937 sequence, word for word what the library class MersenneTwister delivers after seed(v), with least period exactly 2^19937-1 (also from every other non-zero effective state); copies behave like the original. The program mt1.cpp succeeds for any memory contents and prints, for v = 1..32, the largest k such that the v highest bits of k consecutive results can take all values, and the exact defects and their sum; in particular k(1)=19937 and k(32)=623 with defect 0 and 623 <= k(v) <= 19937/v. isZero, as in mt2.cpp, looks at the wrong bits: it returns true for an object with period 2^19937-1 and false for an object whose results are all zero.", "quantifier": "all seeds, all memory contents, all effective states, all v, all prescribed output words", "why_tests_cant": "the period has 6002 digits; the dimension claims are about all 2^19937 states", "anchors": ["samples/MTDC/mt1.cpp:14-108"]}
{"id": "C86", "title": "A maximal-period generator has perfect first-bit equidistribution and get_all_equidist reports it", "statement": "For every GF(2)-linear generator with n bits of state whose object has period 2^n-1 and whose highest output bit is not constantly zero, get_all_equidist succeeds and sets veq[0] = n (defect d(1) = 0); the reported dimensions do not increase with v and never exceed n/v; they are the dimensions over the whole state space.", "quantifier": "all linear generators, all n, word sizes, accuracies and objects of maximal period", "why_tests_cant": "a statement about all generators; tests compute it for single parameter sets", "anchors": ["include/MTToolBox/AlgorithmEquidistribution.hpp: get_all_equidist"]}
{"id": "C87", "title": "Every parameter line printed by mt2.cpp describes a generator with the printed properties, and parameters of maximal period are accepted", "statement": "For every exponent the program accepts, every id in 0..65535, every count and max delta, any numbers delivered by the parameter source and any memory contents: whenever main of samples/MTDC/mt2.cpp ends, it ends normally after printing exactly count lines. Each printed line carries the given mexp and id, 2 <= pos < mexp/32+1, a mata whose low 16 bits are the id, a maskb with 6 low zero bits and a maskc with 17 low zero bits; the Mersenne Twister with these parameters has least period 2^mexp-1 from every non-zero state, and the printed delta is the exact sum of its 32 dimension defects, not above max delta. If the first two source numbers give a pos and mata whose characteristic polynomial is primitive they are accepted at the first try; in particular the program finds the recursion of MT19937 when the source delivers 395 and 0x9908....", "quantifier": "all accepted exponents, ids, counts, delta bounds, source sequences, memory contents", "why_tests_cant": "a search takes hours per line and the period cannot be observed; tests see a few ids", "anchors": ["samples/MTDC/mt2.cpp:1-420"]}
{"id": "C88", "title": "Every parameter line printed by rmt64dc describes a generator whose output period is a multiple of 2^mexp-1, but for eleven of its exponents no line can be printed without an undefined shift", "statement": "For every exponent rmt64dc accepts, every count and seed and any numbers delivered by the source, whatever uninitialised memory contains: whenever the program ends, it has printed count lines or executed an undefined shift in RMT64Search::setOneBit (then fewer than count lines have been printed); no other undefined operation, no endless parity search and no failed measurement is possible. Each printed line carries the given mexp, pos < mexp/64+1 and clean masks; every period of the outputs after seed(1) (also an eventual one) is a multiple of 2^mexp-1; the state space has a component of an irreducible polynomial of degree mexp, and the printed delta is the sum of the dimension defects of that component plus a constant of mexp, provided the parity vector, which the program leaves in the state, did not remove the component. With the int shifts of the C++ standard and mexp in {521,607,2203,3217,4253,4423,9689,9941,11213,21701,44497} every run that asks for a line and ends has executed an undefined shift and printed nothing. Parameters whose lowest output bit has a minimal polynomial with an irreducible factor of degree mexp are accepted at the first try.", "quantifier": "all accepted exponents, counts, source sequences, memory contents", "why_tests_cant": "the search is random and long, the period cannot be observed, and an undefined shift happens to work on common processors", "anchors": ["samples/RMT/rmt64dc.cpp:1-245", "samples/RMT/rmt64.hpp", "include/MTToolBox/AlgorithmReducibleRecursionSearch.hpp", "include/MTToolBox/AlgorithmCalculateParity.hpp"]}
{"id": "C89", "title": "sfmtdcfixed prints only good parameter lines, and sfmtdc and sfmtdcfixed accept parameters with a large component at the first try; sfmtdc finds SFMT607", "statement": "For every accepted exponent, every count, any random numbers and any contents of uninitialised memory, sfmtdcfixed (sfmtdc compiled with SFMT_PARAM_FIXED) ends with count lines or with 'search failed' after fewer, never with an error, exception or undefined operation, and each line satisfies what C67 promises of sfmtdc. If the parameters that the first random numbers select give, seeded with 1, a lowest output bit whose minimal polynomial has an irreducible factor of degree mexp, then sfmtdc and sfmtdcfixed called with count 1 print exactly one line, with these parameters, and it is good. In particular, for thirteen explicit random numbers sfmtdc with exponent 607 prints the published recursion parameters of SFMT607, whose minimal polynomial is proved to have a primitive factor of degree 607.", "quantifier": "all accepted exponents, counts, random numbers, memory contents; for SFMT607 all continuations of the random numbers", "why_tests_cant": "the search is random, completeness of one try is a statement about all parameters, and periods of 2^607-1 cannot be observed", "anchors": ["samples/sfmtdc/sfmtdcfixed.cpp:34", "samples/sfmtdc/sfmtdcfixed.cpp:78-165", "samples/sfmtdc/sfmtsearch.hpp:457-481", "include/MTToolBox/AlgorithmReducibleRecursionSearch.hpp"]}
{"id": "C90", "title": "dSFMTdc accepts parameters with a large component at the first try and finds dSFMT1279, but no run can print the published parameters of dSFMT521", "statement": "If the parameters that the first random numbers select give, seeded with 1, a lowest output bit whose minimal polynomial has an irreducible factor of degree mexp, then dSFMTdc called with count 1 prints exactly one line, with these parameters, and it is good in the sense of C68. For six explicit random numbers dSFMTdc with exponent 1279 prints the published recursion parameters of dSFMT1279. Every printed line has pos1 <= n-2 (n words): pos1 = n-1 is never tried. Hence, whatever the random numbers, the seed, the count and the option --fixed, no line printed with exponent 521 has the published parameters of dSFMT521 (pos1 = 3, n = 4), although these have a primitive factor of degree 521.", "quantifier": "all accepted exponents, counts, fixed shifts 1..63, random numbers, memory contents", "why_tests_cant": "that a value can never be tried is a statement about all random sequences; acceptance concerns all parameters; the period cannot be observed", "anchors": ["samples/dSFMTdc/dSFMTdc.cpp:80-140", "samples/dSFMTdc/dSFMTsearch.hpp:378-391", "include/MTToolBox/AlgorithmReducibleRecursionSearch.hpp"]}
{"id": "C91", "title": "From the command line the seven search programs do exactly this", "statement": "For every command line (as getopt_long delivers it): sfmtdc, sfmtdcfixed, dSFMTdc, rmt64dc accept it exactly if every option is known, every numeric argument is in the range of 64 bits, the first operand begins with (optional white space, an optional sign and) a decimal number of the program's table of exponents, and the file of -f can be opened; mt2, MTGP32dc, tinymt32dc the same with their operands. Otherwise there is a usage message and nothing is searched. The last occurrence of an option counts. The random numbers are those of MT19937 / MT19937-64 with the seed of -s. An accepted run of sfmtdc, sfmtdcfixed, dSFMTdc (with 1..63 in --fixed) prints good lines (C67, C68, C89), as many as -c asks for (cast to int) or fewer followed by 'search failed', a run of rmt64dc, mt2, MTGP32dc that ends and every run of tinymt32dc prints exactly what C88, C87, C61, C58 say for the exponent, the id, the limits and the count of the command line. False: that the lines go to the file of -f (it is emptied, even on errors, and nothing is written to it); that the count is honoured (4294967296 prints nothing); that bad numbers are rejected (607abc, hello, MTGP32dc with 4294970513 -1, --fixed 64 which is undefined behaviour).", "quantifier": "all sequences of options and operands, all texts, all file systems, all seeds, memory contents", "why_tests_cant": "all command lines and all texts; the meaning of the printed parameters (period, equidistribution) cannot be observed", "anchors": ["samples/sfmtdc/sfmtdc.cpp:63-80,176-273", "samples/sfmtdc/sfmtdcfixed.cpp:63-80,177-274", "samples/dSFMTdc/dSFMTdc.cpp:65-92,153-266", "samples/RMT/rmt64dc.cpp:61-80,126-223", "samples/MTDC/mt2.cpp:260-414", "samples/MTGPDC/parse_opt.cpp:26-139", "samples/MTGPDC/MTGP32dc.cpp:38-53", "samples/TinyMTDC/parse_opt.cpp:41-134", "samples/TinyMTDC/tinymt32dc.cpp:48-67"]}
{"id": "C92", "title": "The generators of the tests are linear with the asserted periods, and test_period passes", "statement": "RTiny32 and RLittle32 of the tests are linear over GF(2) for every parameter; seed never produces the zero state and different seeds produce different states; generate is injective on states exactly if sh3 and sh4 are not 0 (RLittle32: if pos is not a multiple of 17); RTiny32(value) has period 2^128-1 for every value. test_period prints its messages and returns 0 whatever the uninitialised memory is: the minimal polynomials of Tiny32 and Tiny64 have degree 127, that of RTiny32(0x59c94057,...) is reducible, that of RTiny32(0x474ba8c4,...) is irreducible but not primitive, that of RLittle32(0x80903834,...) has an irreducible factor of degree 521 and that of RLittle32(0xed6fdaa7,...) has none.", "quantifier": "all parameters, seeds and states of RTiny32 and RLittle32; all contents of uninitialised memory; every implementation of MinPolySeq that satisfies its contract", "why_tests_cant": "the tests only compare with the results of the code under test; that the minimal polynomials really are primitive, irreducible, reducible or have factors of the degree is a statement about polynomials of degree 128 and 544", "anchors": ["test/test_generator.hpp:155-250,252-370", "test/test_period.cpp:20-149"]}
{"id": "C93", "title": "What the factor table of the tests certifies, and what test_rtiny prints", "statement": "isPrime(poly, 128, table) with the table of test_period.cpp and test_rtiny.cpp returns true for every primitive polynomial of degree 128; if it returns true then poly is irreducible of degree 128 and the order of X is a multiple of (2^128-1)/67280421310721. The last entry 672804213107211 does not divide 2^128-1 (67280421310721 is meant), and there is a polynomial that is accepted and not primitive. test_rtiny prints in every turn exactly: nothing if the degree of the minimal polynomial is not 128, 'irreducible' and the parameters exactly if it is irreducible (then 'prime' as isPrime says), otherwise 'reducible', with 'has a factor of degree 127' exactly if there is one. It never stops early (prime is never set) and draws six numbers in each turn.", "quantifier": "all polynomials, all streams of parameter numbers, all numbers of turns, every implementation of MinPolySeq that satisfies its contract", "why_tests_cant": "all polynomials of degree 128; the accepted non-primitive polynomial has probability 10^-14; the program runs 10000000 turns", "anchors": ["test/test_rtiny.cpp:11-70", "test/test_period.cpp:110-111", "include/MTToolBox/period.hpp"]}
{"id": "C94", "title": "Tiny32 is maximally equidistributed, and test_equidist passes", "statement": "For every seed and every accuracy v from 1 to 32, every pattern of floor(127/v) blocks of v bits that is not entirely zero occurs as the leading v bits of consecutive outputs of Tiny32(seed) within one period of 2^127-1. get_all_equidist for Tiny32(seed) succeeds, delivers floor(127/v) in veq[v-1] for every v and returns 0. test_equidist prints 'testing equidistribution ...ok' and returns 0.", "quantifier": "all seeds, all accuracies, all patterns, all contents of the array veq before the call", "why_tests_cant": "2^127 patterns for each accuracy; the test compares only the sum computed by the algorithm under test, for one seed", "anchors": ["test/test_equidist.cpp:14-27", "test/test_generator.hpp:18-111", "include/MTToolBox/AlgorithmEquidistribution.hpp"]}
{"id": "C95", "title": "make check: test_mt, test_search, test_temper, test_search_temper, test_linearity, test_primefactors and test_version pass", "statement": "test_mt passes: the first five numbers of MersenneTwister after the two seedings are the listed ones, and the comparison succeeds only for them. test_search: for every source of numbers, seed and number of tries it never prints NG and returns 0 exactly if one of the first pairs of numbers, taken as mat1 and mat2, gives every non-zero state of TinyMT the period 2^127-1, otherwise 77; with the default seed 5489 the search examines exactly 99 pairs and finds mat1 = 0x030c0399, mat2 = 0xba19b463, so that the test returns 0. test_temper: for every generator the two tempering searches end, change nothing but tmat, and do not increase the sum of the dimension defects; the test passes. test_search_temper: whenever some pair has the maximal period the search ends with the first such pair, the weight is below 128, and the test fails exactly if the final sum of defects is above 10; with the default seed it passes. test_linearity, test_primefactors and test_version pass.", "quantifier": "all sources of numbers, seeds, numbers of tries, contents of uninitialised arrays; all generators for the tempering searches", "why_tests_cant": "the tests are what is specified: running them shows one run on one machine, with one NTL; the theorems hold for every MinPolySeq that meets its contract, every source and every content of the uninitialised array", "anchors": ["test/test_mt.cpp:13-70", "test/test_search.cpp:14-39", "test/test_temper.cpp:13-29", "test/test_search_temper.cpp:14-44", "test/test_linearity.cpp:12-23", "test/test_primefactors.cpp:13-58", "test/test_version.cpp:5-15", "test/test_temper_searcher.hpp:19-142", "test/Makefile.am:5-7"]}
{"id": "C96", "title": "test_rlittle: what each turn prints, when the endless loop is left, and that it is left", "statement": "For every stream of numbers and whatever the uninitialised array contained, test_rlittle prints the first ten outputs of the default RLittle32 and then, in every turn, exactly the lines that the minimal polynomial of the low bits of the outputs calls for: nothing if its degree is below 521; otherwise the degree if it is above 521, and either irreducible with the parameters, or reducible with the parameters and, exactly if it has an irreducible factor of degree 521, that message. The loop, which has no bound, is left exactly after the first turn up to which both an irreducible polynomial and a reducible one with a factor of degree 521 have occurred; six numbers are drawn between two turns. With the numbers that MersenneTwister really delivers it is left after at most 673 turns; with a source of zeros it is never left.", "quantifier": "all streams of numbers, all numbers of turns followed, all contents of uninitialised memory, all MinPolySeq that meet the contract", "why_tests_cant": "the program is not part of make check and has no expected output; a run shows one stream, and whether an unbounded loop ends cannot be seen by waiting", "anchors": ["test/test_rlittle.cpp:11-53", "test/test_generator.hpp:253-349", "lib/period.cpp:28-32", "lib/period.cpp:166-202"]}
{"id": "C97", "title": "The exact equidistribution tables of the published xorshift generators and the text the xorshift programs print", "statement": "For every accuracy v from 1 to 32 the table printed by xorshift-2.cpp (shifts 5, 14, 1) and by xorshift-5.cpp (shifts 20, 11, 7) is exact: from every state that is not zero every pattern of k(v) blocks of v bits that is not zero occurs in the leading bits of consecutive outputs within one period, and some pattern of k(v)+1 blocks, which is not zero, never occurs; the same holds for xorshift128_generate. The programs xorshift-2.cpp (also slide/xorshift-22.cpp), xorshift-5.cpp and xorshift128_main.c print exactly the stated texts (delta 117 and 13, and the 40 numbers), whatever uninitialised memory contains.", "quantifier": "all non-zero states, all accuracies, all patterns, all contents of uninitialised memory", "why_tests_cant": "no test runs these programs; that a pattern occurs or never occurs among 2^128-1 positions cannot be tried out", "anchors": ["samples/XORSHIFT/xorshift-2.cpp:13-76", "samples/XORSHIFT/xorshift-5.cpp:13-78", "samples/XORSHIFT/xorshift128_main.c:3-12", "samples/XORSHIFT/xorshift128.c:11-35", "slide/xorshift-22.cpp:1-14", "include/MTToolBox/AlgorithmEquidistribution.hpp"]}
{"id": "C98", "title": "test_period of sfmtdc and calc_period of dSFMTdc: the lines printed for all start and weight modes", "statement": "On every text that begins with admissible parameters, and whatever the uninitialised part of the seed contains, test_period (sfmtdc) and calc_period (dSFMTdc) print these parameters, the least and the largest degree of the minimal polynomials of the examined output bits from the seeded object (and the number of terms of the first one of largest degree), and then one line for each start mode and weight mode, up to the first start mode in which the minimal polynomial of the lowest output bit has no irreducible factor of degree mexp, where they end with `annihilate fail`. In every line max is mexp, and min is mexp if every examined bit of the words sees the component of dimension mexp, and 0 otherwise; neither depends on the weight mode. If the seed has a part in the component and every bit of the words sees it, all sixteen (four) lines are printed with min = max = mexp. calc_period examines only 40 of the 52 bits of the upper half.", "quantifier": "all admissible parameters of any exponent, all texts that begin with them, all seeds, all modes, all MinPolySeq that meet the contract", "why_tests_cant": "the programs are not run by any test; the numbers depend on parameters and seeds that no finite set of runs exhausts", "anchors": ["samples/sfmtdc/test_period.cpp:12-98", "samples/dSFMTdc/calc_period.cpp:12-95", "samples/sfmtdc/sfmtsearch.hpp:340-434", "samples/dSFMTdc/dSFMTsearch.hpp:289-346", "samples/sfmtdc/Annihilate.cpp"]}
{"id": "C99", "title": "make_old_format of dSFMTdc: the text it prints, and printBinary", "statement": "printBinary writes the coefficients of a polynomial from the constant one upwards, 32 in a line, then its degree; the text determines the polynomial, also when other text follows. On every text that begins with admissible parameters and for every seed word, make_old_format prints the header with these parameters in hexadecimal and then either, exactly if the minimal polynomial of the lowest output bit of the seeded object has no irreducible factor of degree mexp, the message about this, ending with an exception; or that irreducible factor, and a multiple of it that annihilates the seeded state and divides every polynomial that annihilates the transition. The first polynomial depends on the parameters only, not on the seed. On a line printed by dSFMTdc the program with the seed word 1 does not fail.", "quantifier": "all polynomials; all admissible parameters of any exponent, all texts that begin with them, all seed words, all MinPolySeq that meet the contract", "why_tests_cant": "no test runs the program; polynomials, parameters and seeds are unbounded families", "anchors": ["samples/dSFMTdc/make_old_format.cpp:61-106", "samples/dSFMTdc/printBinary.cpp:6-25"]}
{"id": "C100", "title": "The programs test_linearity of sfmtdc, dSFMTdc and MTGPDC: what they print and what they test", "statement": "On every text that begins with admissible parameters test_linearity of sfmtdc (dSFMTdc) prints these parameters, 304 (76) dots and `Linearity Test OK` and ends with 0, whatever the uninitialised parts of the nineteen seed words contain: TestLinearity accepts the class in every start mode and weight mode and from every state. For any class the message of success appears exactly if every single test accepts, and the exit status is 0 also without it; without an argument the usage is printed and the status is 1. The check program of MTGPDC (built by make check) ends with 0, whatever is uninitialised; it would end with 0 for every table tbl, because set_param does not fill the lookup table: the tested recursion adds nothing from a table, and its mask is not that of exponent 11213.", "quantifier": "all admissible parameters of any exponent, all texts that begin with them, all contents of uninitialised memory, all tables", "why_tests_cant": "the programs are the tests; that they accept for all parameters, and that one of them does not depend on the table it sets, is not seen in a run", "anchors": ["samples/sfmtdc/test_linearity.cpp:7-69", "samples/dSFMTdc/test_linearity.cpp:7-59", "samples/MTGPDC/test_linearity.cpp:12-33", "samples/MTGPDC/MTGP32search.hpp:245-247", "samples/MTGPDC/mtgp_param.h:30-39", "include/MTToolBox/TestLinearity.hpp"]}
{"id": "C101", "title": "calc_parity of sfmtdc and dSFMTdc with all options: the text, the status and what the self-test -c says", "statement": "On every text that begins with admissible parameters (for dSFMTdc with a fixed point), with and without -c and -v and for every content of uninitialised memory: calc_parity prints an error exactly if the seed of main has no component of dimension mexp; the exit status is then 0 in sfmtdc and -1 in dSFMTdc. Otherwise it prints the parameters with a parity vector for which certified objects have a period that is a multiple of 2^mexp - 1. With -c the self-test follows; its last line is `test successed 100 / 100` if each of the seeds 1 to 100 has a component of dimension mexp, and otherwise `test failed at count k` where k + 1 is the first seed without it. None of the other error messages of the self-test can appear, and without -v nothing else is printed. On a line that the search printed, and with seed word 1, there is no error and the self-test gets past the first seed.", "quantifier": "all admissible parameters, all texts that begin with them, all seed words, all options, all contents of uninitialised memory", "why_tests_cant": "the self-test runs on one parameter set at a time; that its error branches are unreachable after a right parity search, and what its verdict means, is a statement about all parameter sets", "anchors": ["samples/sfmtdc/calc_parity.cpp:28-241", "samples/dSFMTdc/calc_parity_main.cpp:20-215", "samples/sfmtdc/sfmtsearch.hpp:564-634", "samples/dSFMTdc/dSFMTsearch.hpp:483-568"]}
{"id": "C102", "title": "calc_fixpoint of dSFMTdc with and without -c: the text, and what the self-check says", "statement": "On every text that begins with admissible parameters, for every seed word, every content of uninitialised memory and every choice of Bezout coefficients by NTL: calc_fixpoint reports an error exactly if the seed of main has no component of dimension mexp. Otherwise, without -c, it prints the parameters with a fixed point for that component. With -c it prints the degrees of the common multiple and of the cofactor and then either the very same line followed by the two words of the fixed point, or `chk_fix2 error` and `chk_fix1 error`; the latter exactly if the defect of the decomposition, a state that is zero if the common multiple annihilates the affine constant of the recursion, is not zero. The messages `failure d != 1` and `modoranai` and the exception can never appear. On a line that the search printed, and with seed word 1, there is no error without -c.", "quantifier": "all admissible parameters, all texts that begin with them, all seed words, all contents of uninitialised memory, all results of NTL's XGCD that satisfy its contract", "why_tests_cant": "the check runs on one parameter set at a time and with the coefficients of one NTL version; that three of its four error exits are unreachable and when the fourth is taken is a statement about all of them", "anchors": ["samples/dSFMTdc/calc_fixpoint_main.cpp:23-237", "samples/dSFMTdc/calc_fixpoint.cpp:16-45"]}
{"id": "C103", "title": "calc_equidist of sfmtdc, dSFMTdc and RMT from the command line to the text", "statement": "For every list of options, if the argument reached when the options have been read (C105: the first operand, if no option is wrong) begins with admissible parameters: if an option is unknown or a seed is not below 2^64, calc_equidist of sfmtdc and dSFMTdc ends with -1 and prints nothing; otherwise it ends with -1 and prints nothing exactly if the seed (the argument of the last -s, else the clock) has no component of dimension mexp. If it has one, the program ends with 0 and prints, character by character, the parameters and the sums of defects, and with -v one line `k(v) = ..  d(v) = ..` for every v; for 128-bit words the k(v) are the dimensions of equidistribution, for 32, 64 and 52-bit words the values of the formula of C63, and each sum is the sum of the defects of its table; -r reads the words from the least significant bit. A text printed depends only on the parameters and on which of -v and -r are present, not on the seed, the clock or uninitialised memory. On a line that the search program printed, without -r, the program prints this very line first, and always does so with seed 1 if the uninitialised half of the seed word is 0. calc_equidist of RMT without argument ends with 1, with -1 exactly if the start polynomial has no factor of degree mexp, and else prints the parameters, the sum and the table.", "quantifier": "all option lists, all admissible parameters, all texts that begin with them, all clocks, all contents of uninitialised memory", "why_tests_cant": "the printed table is a statement about vector spaces of dimension up to 216091 for every parameter set and every order of options; independence of the seed ranges over 2^128 seed words", "anchors": ["samples/sfmtdc/calc_equidist.cpp:27-208", "samples/dSFMTdc/calc_equidist.cpp:26-178", "samples/RMT/calc_equidist.cpp:11-71"]}
{"id": "C104", "title": "the command lines of calc_parity and calc_fixpoint", "statement": "calc_parity of sfmtdc and dSFMTdc and calc_fixpoint of dSFMTdc read their arguments with GNU getopt. If every option letter before `--` is c or v (calc_fixpoint: c), the options may stand anywhere, together or apart, repeated, also behind the text; the self-check is made exactly if c occurs, its steps are shown exactly if v occurs, and the text is the first argument that is not an option. Hence on a line that the search program printed, calc_parity prints a line with the same parameters and a good parity, followed by the verdict of the self-test exactly if c occurs; the same for the fixed point of calc_fixpoint. Any other letter, h included, gives neither a help text nor an error: if it is the last letter it has no effect; otherwise it swallows the next letter, and the text is the argument behind the element of this letter, or that element itself. So without a text, with `TEXT -h -x`, and (calc_parity) with `-hcv TEXT` the behaviour is undefined.", "quantifier": "all lists of arguments, all texts, all contents of uninitialised memory", "why_tests_cant": "the argument lists are unbounded, and the wrong readings need particular orders of options and text", "anchors": ["samples/sfmtdc/calc_parity.cpp:147-203", "samples/dSFMTdc/calc_parity_main.cpp:135-177", "samples/dSFMTdc/calc_fixpoint_main.cpp:124-158"]}
{"id": "C105", "title": "the search programs and calc_equidist from their arguments", "statement": "sfmtdc, sfmtdcfixed, dSFMTdc, rmt64dc, mt2, MTGP32dc, tinymt32dc and calc_equidist of sfmtdc and dSFMTdc read their arguments with GNU getopt_long. Every list of arguments can be read in exactly one way as options (letters alone or in clusters, with the argument attached or in the next element; long names, also abbreviated if unique, with `=` or the next element) and operands, which may stand anywhere, or up to a first wrong option: an unknown letter, an unknown or ambiguous name, a missing argument, an argument for a name that takes none. The search programs do, for every list of arguments, what the properties C91 and following say about these options and operands, a wrong option being an option that is not known. calc_equidist does so if no option is wrong and no seed is from 2^64 on; otherwise it prints nothing and ends with -1, unless the argument it has reached is no parameter text. The last can happen: with `-x -v -s 5 LINE` it takes `-s` for the parameters, and the behaviour is undefined.", "quantifier": "all lists of arguments (all lengths, all characters), all tables of the nine programs, all clocks, all contents of uninitialised memory", "why_tests_cant": "the argument lists are unbounded, and the orders, clusters and abbreviations multiply", "anchors": ["samples/sfmtdc/sfmtdc.cpp:176-273", "samples/sfmtdc/sfmtdcfixed.cpp:177-274", "samples/dSFMTdc/dSFMTdc.cpp:153-266", "samples/RMT/rmt64dc.cpp:126-223", "samples/MTDC/mt2.cpp:260-414", "samples/MTGPDC/parse_opt.cpp:26-139", "samples/TinyMTDC/parse_opt.cpp:41-134", "samples/sfmtdc/calc_equidist.cpp:127-208", "samples/dSFMTdc/calc_equidist.cpp:106-178"]}
{"id": "C106", "title": "the command line of make_old_format", "statement": "make_old_format of dSFMTdc calls getopt and then takes argv[1] for the parameters. If no argument is an option and none is `--`, this is the first argument, and the program does what C99 says. Any use of its own option -d (alone, repeated, in clusters, in front of the line or behind it), and `--`, move that element to argv[1], and the behaviour is undefined; so it is without arguments. The option -h gives no help text: in front of the line or alone behind it the behaviour is undefined, and `LINE -hd` prints what `LINE` prints.", "quantifier": "all lists of arguments without letters other than d; all lines; all seed words", "why_tests_cant": "the argument lists are unbounded, and what stands in argv[1] depends on when getopt exchanges the arguments", "anchors": ["samples/dSFMTdc/make_old_format.cpp:18-65"]}
{"id": "C107", "title": "the text that the search programs write", "statement": "For a command line in order, sfmtdc, sfmtdcfixed and dSFMTdc write the seed in decimal, a header that names every column, one comma-separated line for every parameter set (numbers in decimal, words in hexadecimal with leading zeros), and `search failed` exactly if there are fewer lines than asked for; with -v also the times. rmt64dc, mt2, MTGP32dc and tinymt32dc (without -v) write the header and the lines; MTGP32dc and tinymt32dc write the header only if there is a line. For other command lines nothing is written to cout, or the help text by mt2, and the status is -1. The lines determine the parameters, delta and, where printed, the weight and the polynomial. The printed seed given back with -s repeats the run. The header of MTGP32dc names 16 of 18 columns, and its lines are defined only if an uninitialised character is 0. A line of rmt64dc can be given to calc_equidist, whose sum is smaller by a constant.", "quantifier": "all option sequences and operands; all numbers of lines; all contents of uninitialised memory; any NTL functions that meet their specifications", "why_tests_cant": "the searches run for hours, and which parameters they find depends on the seed; that different lines have different texts is a statement about all pairs", "anchors": ["samples/sfmtdc/sfmtdc.cpp:77-164", "samples/sfmtdc/sfmtdcfixed.cpp:78-165", "samples/dSFMTdc/dSFMTdc.cpp:80-141", "samples/RMT/rmt64dc.cpp:78-114", "samples/MTDC/mt2.cpp:162-175", "samples/MTDC/mt2.cpp:247-258", "samples/MTDC/mt2.cpp:392-413", "samples/MTGPDC/mtgp_param.h:84-124", "samples/MTGPDC/MTGP32dc.cpp:44-92", "samples/TinyMTDC/tinymt32dc.cpp:67-143"]}
{"id": "C108", "title": "the texts of a polynomial: print_binary and poly_sha1", "statement": "print_binary writes the coefficients of a polynomial that is not 0 as 1 and 0, lowest degree first (with breakline in rows of 32, the incomplete row in front of `deg=`), then `deg=` and the degree in decimal; the zero polynomial gives `0deg=-1`. Each of the two texts determines the polynomial. poly_sha1 digests the coefficients in the same order, or `-1` for 0, and returns 40 digits 0-9a-f that determine the digest; so two polynomials with the same result are equal or give a collision of SHA-1. A program compiled with USE_SHA prints this result in the first cell of a line of MTGP32dc exactly if the memory of the argument of set_param held a 0 where the end of the string belongs; otherwise it reads behind the array.", "quantifier": "all polynomials over GF(2); any digest function; all contents of uninitialised memory", "why_tests_cant": "that a text determines its polynomial is a statement about all pairs; the end of the string depends on what the stack held", "anchors": ["include/MTToolBox/util.hpp:127-145", "include/MTToolBox/util.hpp:233-255", "samples/MTGPDC/mtgp_param.h:41-82", "samples/MTGPDC/mtgp_param.h:90-94", "samples/MTGPDC/MTGP32search.hpp:195-197", "samples/MTGPDC/MTGP32search.hpp:245-247", "samples/MTGPDC/MTGP32dc.cpp:73-86"]}
{"id": "C109", "title": "verbose changes nothing but the text, and what the text says", "statement": "With verbose the tempering searches (AlgorithmPartialBitPattern, AlgorithmBestBits) and the combined searches (AlgorithmRecursionAndTempering, AlgorithmReducibleRT) leave the same generator and return the same as without, as long as the search of the recursion needs at most 214748 turns, and without verbose they write nothing. The last line of a tempering search gives the delta of the generator it leaves. print_kv writes a line v:k(v)(mexp/v - k(v)) for every v. The text of a combined search consists of one line for every turn without success, the number of parameter sets examined, the parameters of the recursion, the texts of the tempering searches, and at the end the parameters, the table and the delta of the generator that is left. tinymt32dc -v finds the same parameters as tinymt32dc for all options, and the lines without -v are among its lines.", "quantifier": "all generators and tempering searches that meet the stated contract, all parameter sources, all numbers of turns, all clock texts and uninitialised arrays; all options of tinymt32dc", "why_tests_cant": "equality of two runs for every generator and every source; the overflow of the counter needs 214749 turns of at least a million sets", "anchors": ["include/MTToolBox/AlgorithmPartialBitPattern.hpp:129-161", "include/MTToolBox/AlgorithmPartialBitPattern.hpp:235-278", "include/MTToolBox/AlgorithmBestBits.hpp:283-337", "include/MTToolBox/AlgorithmRecursionAndTempering.hpp:135-205", "include/MTToolBox/AlgorithmRecursionAndTempering.hpp:296-303", "include/MTToolBox/AlgorithmReducibleRT.hpp:126-202", "include/MTToolBox/AlgorithmReducibleRT.hpp:297-304", "samples/TinyMTDC/tinymt32dc.cpp:68-119"]}
{"id": "C110", "title": "mt2 -v, MTGP32dc -v and rmt64dc -v find the same parameters as without -v", "statement": "For all options that the programs accept, mt2, MTGP32dc and rmt64dc find the same parameters with -v and without, as long as no search of the recursion needs more than 214748 turns. Their text with -v consists of the opening and the closing, the texts of the searches and, after each search that leads to one, the line that is also printed without -v. Without -v they write exactly the text of C107. The parameters in the texts of the searches are written in the same form as in the lines. The text of a search that finds parameters ends with the parameters, one line for every v up to the number of bits of a word with the greatest dimension of equidistribution of the tempered generator and its distance from the upper bound, and the sum of these distances.", "quantifier": "all accepted exponents and identifiers, all counts, all parameter sources, all clock texts, all uninitialised values", "why_tests_cant": "equality of two runs of a search for every source and exponent; a single run at the larger exponents takes hours", "anchors": ["samples/MTDC/mt2.cpp:166-175", "samples/MTDC/mt2.cpp:392-412", "samples/MTGPDC/MTGP32dc.cpp:44-93", "samples/RMT/rmt64dc.cpp:78-115", "samples/RMT/rmt64.hpp:198-211"]}
{"id": "C111", "title": "Different seeds give different Mersenne Twister streams", "statement": "MersenneTwister::seed(value) gives equal streams for values with the same lower 32 bits; for all others, and for any two values of MersenneTwister64::seed, the streams differ among the first 624 (312) words and infinitely often. Array seeding with two different keys of the same length, at least one word and at most 622 (310 for the 64-bit class), gives streams that differ in the same way. The limit is exact: for 623 (311) words there are two different keys with the same stream. Keys of different lengths may give the same stream: {k} and {k, k-1} always do, so seed(\"b\") and seed(\"ba\") are the same generator.", "quantifier": "all pairs of seeds, all pairs of keys of every length up to 622 (310), all earlier states of the objects, the whole infinite streams", "why_tests_cant": "there are 2^64 seeds and 2^19904 keys, and the difference may only show far into the stream", "anchors": ["include/MTToolBox/MersenneTwister.hpp:139-146", "include/MTToolBox/MersenneTwister.hpp:159-178", "include/MTToolBox/MersenneTwister.hpp:195-233", "include/MTToolBox/MersenneTwister64.hpp:143-151", "include/MTToolBox/MersenneTwister64.hpp:200-237"]}
{"id": "C112", "title": "TinyMT's array seeding uses every word of the key", "statement": "For every parameter set and every key that tinymt32_init_by_array accepts (fewer than 2^31 - 1 words), and every position in it: among the keys that agree outside this position, at most four lead to the same generator, so every word can be changed so that another generator results, however long the key is. Within the function two keys that differ in exactly one word always leave different arrays of four words after the two mixing loops; so do a key and the same key with zeros appended, up to seven words; both hold for tinymt64_init_by_array too.", "quantifier": "all parameter sets, all keys of every accepted length, all positions, all values of the word at the position", "why_tests_cant": "a key may have 2^31 words and each word 2^32 (2^64) values; a test that compares outputs for one key shows nothing about a word that is skipped for other lengths", "anchors": ["test/tinymt32.c:85-133", "test/tinymt64.c:76-128"]}
{"id": "C113", "title": "seed of the sample classes is a clean restart and keeps seeds apart", "statement": "For the generator classes of mt2.cpp, MTGP32search.hpp, rmt64.hpp, sfmtsearch.hpp, dSFMTsearch.hpp, tinymt32search.hpp and xorshift-4.cpp: after seed(v) the outputs depend on v and the parameters only, not on what the object did before. seed(v) never leaves the zero state (TinyMT: exactly for v = 0 it does). Different seeds leave different states, so that with parameters of maximal period and an output that is not always zero (mt2, MTGP, TinyMT, xorshift; for example the recurrence of MT19937) the outputs differ infinitely often, and for SFMT (weight mode 4) some output differs. The dSFMT class is the exception: each of its generators belongs to exactly 4096 of the 2^128 seeds, one for every value of the upper twelve bits of the first half; seeds with the same first half or the same second half are kept apart.", "quantifier": "all objects that generate accepts with the reverse flag off (by C114 the flag does not change generate()), all pairs of seeds (2^32, 2^64 or 2^128 values each), all positions of the output stream", "why_tests_cant": "pairs of seeds cannot be enumerated, and the coinciding dSFMT seeds are found only by solving for the second half of the seed", "anchors": ["samples/MTDC/mt2.cpp:136-144", "samples/MTGPDC/MTGP32search.hpp:253-261", "samples/RMT/rmt64.hpp:170-178", "samples/sfmtdc/sfmtsearch.hpp:245-257", "samples/dSFMTdc/dSFMTsearch.hpp:228-252", "samples/TinyMTDC/tinymt32search.hpp:199-205", "samples/XORSHIFT/xorshift-4.cpp:121-124"]}
{"id": "C114", "title": "what the setters of the sample classes change, and what they keep", "statement": "setReverseOutput and resetReverseOutput (set_reverse_bit and reset_reverse_bit of sfmt) do not affect generate(); after them generate(v) shows, call for call, the v lowest bits of the words of generate() from the least significant one on, respectively the v leading bits, and zeros below; each undoes the other. For dSFMT set_reverse_bit does nothing. After setStartMode(a) and setWeightMode(w) of sfmt and dSFMT, in either order, call k of generate() returns in its first w places the words of the sequence that the object produces anyway, starting with word a of the block made last (a = 0: with the next block), and in the other places what the call before had there; at the first call these places are zero after setWeightMode and what the object holds after setStartMode alone. setParityValue is read back by getParityValue, goes into the parity parameters and changes nothing else; the same for setFixPoint. After setPrefix(p) the next setup_prefix gives every 64-bit word the upper bits p and keeps its lower 52. After setFixed(true) and setFixedSL1(x) every parameter set drawn has the shift x.", "quantifier": "all objects with at least two words, all modes in range, all numbers of calls, all values set", "why_tests_cant": "all states and arbitrarily long runs; a mode that is off by one word gives plausible numbers and the measurement of k(v) still ends", "anchors": ["samples/sfmtdc/sfmtsearch.hpp:323-455, 522-532, 584-594", "samples/dSFMTdc/dSFMTsearch.hpp:289-371, 431-439, 503-517, 549-552, 606-628", "samples/MTDC/mt2.cpp:92-102, 190-196", "samples/MTGPDC/MTGP32search.hpp:114-124, 292-302", "samples/RMT/rmt64.hpp:100-119, 226-232", "samples/TinyMTDC/tinymt32search.hpp:249-259, 423-433"]}
{"id": "C115", "title": "a parameter search returns the first set of its source that qualifies", "statement": "The parameter source delivers an endless sequence of numbers and every setUpParam takes a fixed number c of them. start(N) of the recursion search looks at the sets made of numbers 0..c-1, c..2c-1, ... in this order: it returns true if and only if one of the first N sets has the maximal period (and shows an odd output after seed(1)), the generator then has the parameters of the first such set m, getCount() has grown by m+1, and the next number that will be taken is number c(m+1); no set is skipped, tested twice or taken out of order. Otherwise it returns false, N sets are counted and c*N numbers are consumed. The same holds for the reducible search on a state of less than 2*mexp bits, as in all the programs, where a set qualifies if the minimal polynomial of the lowest output bit after seed(1) has an irreducible factor of degree mexp. For MT32Search (c = 2), mtgp32 (5), RMT64Search (2), sfmt (13, or 9 with fixed shifts) and dSFMT (6, or 5 with fixed sl1) the set is given explicitly by the numbers. An MT32Search set whose mata has the highest bit 0 never qualifies.", "quantifier": "all sequences of the source, all N, all objects of the classes with the sizes of the programs", "why_tests_cant": "all sequences of random numbers; that nothing before the returned set qualifies cannot be seen from the result", "anchors": ["include/MTToolBox/AlgorithmRecursionSearch.hpp:174-194", "include/MTToolBox/AlgorithmReducibleRecursionSearch.hpp:120-161", "samples/MTDC/mt2.cpp:150-160", "samples/MTGPDC/MTGP32search.hpp:166-190", "samples/RMT/rmt64.hpp:188-192", "samples/sfmtdc/sfmtsearch.hpp:457-481", "samples/dSFMTdc/dSFMTsearch.hpp:378-391"]}
{"id": "C116", "title": "the constructor of AlgorithmPrimitivity reads all its numbers from one stream", "statement": "For a table of strings that hold decimal numbers (one or more each, separated and surrounded by white space), AlgorithmPrimitivity(const char*[]) stores as many numbers as there are strings before NULL: the first ones of all numbers of the table in their order. With one number per string these are exactly the numbers of the table, the same as isPrime(poly, degree, const char*[]) reads. The two differ otherwise: of the strings \"k m\", \"n\" the constructor stores k and m, isPrime reads k and n; and a string that is not the last one and has another character after its number makes the constructor abort, while isPrime ignores the character.", "quantifier": "all tables, all numbers of any length, all white space, whatever follows NULL", "why_tests_cant": "all tables and all numbers; the test programs only use tables with one plain number per string, where the shared stream cannot be seen", "anchors": ["lib/AlgorithmPrimitivity.cpp:13-30", "lib/period.cpp:127-156"]}
{"id": "C117", "title": "the dumps d_p of the sfmt and dSFMT classes show the whole state", "statement": "d_p of the class sfmt prints one line with the position and then one line of 32 hexadecimal digits for every word of the array; d_p of the class dSFMT prints the position, a line with two numbers for every word, and a line for the lung. Two objects have the same dump if and only if they have the same position and the same array (and the same lung): leading zeros are never lost and no word is left out.", "quantifier": "all objects, all sizes, all states", "why_tests_cant": "that no two different states have the same dump is a statement about all pairs of states", "anchors": ["samples/sfmtdc/sfmtsearch.hpp:626-634", "samples/dSFMTdc/dSFMTsearch.hpp:554-568"]}
{"id": "C118", "title": "after a successful search all non-zero states form one cycle and give one measurement", "statement": "If AlgorithmRecursionSearch::start returns true, then for the parameters left in the generator: from every state that is not zero every other such state is reached by exactly one number of calls of generate less than 2^n-1; the outputs from two such states are the same stream entered at different places; the lowest bits of n = bitSize() consecutive outputs determine the state; and get_all_equidist called on any two such states delivers the same table and the same sum, the dimensions over the whole state space.", "quantifier": "every class that satisfies the contract of the search, every source, every number of tries, all pairs of states, all accuracies", "why_tests_cant": "the cycle has 2^n-1 states; tests can look at a few states only", "anchors": ["include/MTToolBox/AlgorithmRecursionSearch.hpp: start", "include/MTToolBox/AlgorithmEquidistribution.hpp: get_all_equidist"]}
{"id": "C119", "title": "mt2 prints exactly the first qualifying parameter sets of its source, in order, and ends once there are enough", "statement": "Parameter set number i of mt2 is (pos, mata) made of numbers 2i and 2i+1 of its MersenneTwister source. It qualifies if the recurrence of the Mersenne Twister with pos and mata has period 2^mexp-1 from every state that is not zero, and the total dimension defect reached by the tempering search, started from a new object with these parameters, is at most the bound max_delta. Whenever main ends, the lines printed are those of the qualifying sets among the first M, in their order, where M is the least number with count qualifying sets; the masks and the defect printed depend on mexp, pos and mata only, not on the earlier finds, the state of the generator or uninitialised memory. If the first M sets contain count qualifying ones, main ends.", "quantifier": "every exponent the options accept, every identifier, count and bound, every sequence of the source, all uninitialised contents", "why_tests_cant": "one run of the search for one exponent takes minutes to days, and a set that was wrongly skipped does not show in the output", "anchors": ["samples/MTDC/mt2.cpp: main", "include/MTToolBox/AlgorithmRecursionAndTempering.hpp: search", "include/MTToolBox/AlgorithmBestBits.hpp: operator()"]}
{"id": "C120", "title": "MTGP32dc prints, for each id, the first parameter set of greatest period that its source gives, with the same tempering whatever is not initialised", "statement": "For an id, parameter set number i of MTGP32dc is (pos, tbl) made of numbers 5i to 5i+4 of its MersenneTwister source and of the id. With count c and first id d the program prints c lines; line j is that of the first set for the id d+j whose recurrence has period 2^mexp-1 from every state that is not zero. The tempering table and the defect of the line are those which the two tempering searches give for a new object with these parameters that was seeded with 1, and the weight is that of the characteristic polynomial: the line depends on mexp, the id and the numbers of the source only, not on uninitialised members, arrays or copies. The program ends if and only if each of the c ids has such a set.", "quantifier": "every exponent that is not a multiple of 32 and leaves room for pos (in particular the seven the options accept), every first id and count, every sequence of the source, all uninitialised contents", "why_tests_cant": "one line takes minutes to days; a set wrongly skipped does not show in the output, and uninitialised memory is usually the same in every test run", "anchors": ["samples/MTGPDC/MTGP32dc.cpp: main, indexed_search", "samples/MTGPDC/MTGP32search.hpp: setUpParam", "include/MTToolBox/AlgorithmRecursionAndTempering.hpp: search", "include/MTToolBox/AlgorithmPartialBitPattern.hpp: operator()"]}
{"id": "C121", "title": "rmt64dc, sfmtdc, sfmtdcfixed and dSFMTdc print exactly the qualifying parameter sets of their source, in order", "statement": "The numbers of the MersenneTwister source are cut into parameter sets one after another: 2 numbers each for rmt64dc, 13 for sfmtdc, 9 for sfmtdcfixed, 6 for dSFMTdc and 5 if a shift is given. A set qualifies if a new object with it, seeded with 1, has a component of dimension mexp, that is, if the least recurrence of the lowest bit of its outputs has an irreducible factor of degree mexp. The lines printed have the first qualifying set, then the first one behind it, and so on: none is left out, none is tried twice, and computing parity, fixed point and equidistribution of one line does not influence which set comes next. sfmtdc, sfmtdcfixed and dSFMTdc stop with 'search failed' exactly if none of 100*mexp successive sets qualifies; rmt64dc goes on searching. For rmt64dc the object of the test has the tempering masks of the line printed before, because getParamString leaves them in the object.", "quantifier": "every exponent the options accept, every count, every sequence of the source, every fixed shift, all uninitialised contents", "why_tests_cant": "runs take minutes to hours per line; a qualifying set wrongly skipped or a number of the source used twice does not show in the output", "anchors": ["samples/RMT/rmt64dc.cpp: search", "samples/sfmtdc/sfmtdc.cpp: search", "samples/sfmtdc/sfmtdcfixed.cpp: search", "samples/dSFMTdc/dSFMTdc.cpp: search", "include/MTToolBox/AlgorithmReducibleRecursionSearch.hpp: start"]}
{"id": "C122", "title": "runs of sfmtdc, sfmtdcfixed and dSFMTdc can be repeated and extended", "statement": "Two runs of sfmtdc (sfmtdcfixed, dSFMTdc) with the same exponent, fixed shift and random numbers and the same count end in the same way after the same number of lines, and corresponding lines have the same recursion parameters and the same equidistribution sums, even if uninitialised memory differs and NTL's minimal polynomials, kernels and cofactors are computed differently; only the parity words (and for dSFMTdc the fixed point) may depend on these. A run with a larger count begins with the lines of the run with the smaller count, and if the smaller one has ended with 'search failed' the larger one prints exactly the same lines and fails too.", "quantifier": "every exponent the options accept, all counts, every sequence of the source, every fixed shift, all uninitialised contents, all functions that meet the contracts of NTL", "why_tests_cant": "uninitialised memory and the version of NTL are the same in all runs of a test; two long runs would have to be compared", "anchors": ["samples/sfmtdc/sfmtdc.cpp: search", "samples/sfmtdc/sfmtdcfixed.cpp: search", "samples/dSFMTdc/dSFMTdc.cpp: search"]}
{"id": "C123", "title": "tinymt32dc prints the same line for a number in every run", "statement": "tinymt32dc prints the lines of the numbers from the start value down to 0 whose recursion has the period 2^127-1 and whose defect is at most the limit, in this order: all of them with the option all, otherwise the first count of them. The line of a number is that found for a new object with the id, the matrices of the number, the seed 1 and no tempering: it does not depend on the start value, the count, the limit, uninitialised memory, the parameter sets found before or the way NTL computes minimal polynomials. So a run with a larger count begins with the lines of the run with the smaller count, is equal to it if this has run out of numbers, and with the option all a run from a smaller start value prints the last lines of a run from a larger one.", "quantifier": "every id, start value, count, limit, all uninitialised contents, all functions that meet the contract of NTL's MinPolySeq", "why_tests_cant": "a run over 2^32 numbers takes weeks; uninitialised memory and NTL are the same in all runs of a test", "anchors": ["samples/TinyMTDC/tinymt32dc.cpp: search", "samples/TinyMTDC/tinymt32search.hpp", "include/MTToolBox/AlgorithmPartialBitPattern.hpp"]}
{"id": "C124", "title": "what tinymt32dc 0 prints", "statement": "tinymt32dc 0 without options ends with status 0 and writes the header and exactly one line: characteristic polynomial d8524022ed8dff4a8dcc50c798faba43, id 0, mat1 8f7011ee, mat2 fc78ff1f (these are the parameters of the class Tiny32 of the tests), a tempering matrix, weight 63 and a delta from 0 to 6. With any options that leave the start value, a count of at least 1 and a limit of at least 6 this line comes first. It is the line of the number 0x7fffff8f: the 112 numbers above do not have the period 2^127-1.", "quantifier": "all uninitialised contents, all functions that meet the contract of NTL's MinPolySeq, every count, limit from 6 and both values of all", "why_tests_cant": "a run shows what is found with one memory content and one version of NTL; that 112 numbers were rejected rightly and that the period is 2^127-1 cannot be observed", "anchors": ["samples/TinyMTDC/tinymt32dc.cpp: main, search", "samples/TinyMTDC/tinymt32search.hpp", "samples/TinyMTDC/parse_opt.cpp"]}
{"id": "C125", "title": "tinymt32dc never gives the same recursion parameters twice", "statement": "No two lines of a run of tinymt32dc have the same pair (mat1, mat2), for every start value that the options admit (up to 0x7fffffff), and lines of runs for different ids never do, whatever the other options are. The bound is needed: a number and the number with the highest bit changed have the same line.", "quantifier": "all ids, start values, counts, limits, both values of all, all uninitialised contents, all functions that meet the contract of NTL's MinPolySeq", "why_tests_cant": "2^63 pairs of id and number; a test can compare a few", "anchors": ["samples/TinyMTDC/tinymt32dc.cpp: search", "samples/TinyMTDC/tinymt32search.hpp: setUpParam"]}
{"id": "C126", "title": "runs of mt2 and MTGP32dc can be repeated, extended and split", "statement": "Two runs of mt2 with the same exponent, id, limit, random numbers and count that end print the same lines; a run with a larger count begins with the lines of the run with the smaller count; and if a run ends, the runs with smaller counts end. A run of MTGP32dc for a + b ids prints the lines of a run for the first a ids followed by the lines of a run for the other b ids, so the line of an id does not depend on the run it is found in. Uninitialised memory and the way NTL computes minimal polynomials have no influence.", "quantifier": "every exponent the options accept, all ids, limits, counts, every sequence of the source, all uninitialised contents, all functions that meet the contract of NTL's MinPolySeq", "why_tests_cant": "uninitialised memory and the version of NTL are the same in all runs of a test; a search for one line takes hours", "anchors": ["samples/MTDC/mt2.cpp: main", "samples/MTGPDC/MTGP32dc.cpp: main, indexed_search"]}
{"id": "C127", "title": "Which seeds of Tiny32 and Tiny64 give the same numbers", "statement": "Different seeds of Tiny32 give different streams of numbers. Two objects of Tiny64 give the same stream exactly if their effective states are the same; at most two seeds give the same stream, but different seeds can: 0x8ad7b96990e5bcdb and 0x893c846275446ea4 give the same numbers for ever, and so do 0xfe02e87dcfcb13b4 and 0xe1919d44dad8ecfc, because tinymt64_init (unlike tinymt32_init) merges states that differ only in the ignored bit. For every parameter set no three seeds of tinymt64_init have the same effective state.", "quantifier": "all seeds, both settings of LINEARITY_CHECK, all positions of the streams; the last sentence: all parameter sets", "why_tests_cant": "2^64 seeds; a random pair of seeds collides with probability about 2^-126; streams are infinite", "anchors": ["test/tinymt64.c: tinymt64_init, period_certification", "test/tinymt32.c: tinymt32_init", "test/tinymt64.h: tinymt64_next_state", "test/test_generator.hpp: Tiny32, Tiny64"]}
{"id": "C128", "title": "tinymt32 compiled with NON_LINEAR or NO_TEMPER", "statement": "A search of the recursion with tinymt32 compiled with NON_LINEAR does exactly what it does without the macro, because the lowest bit of every output is the same; compiled with NO_TEMPER it draws, counts and accepts the same parameter sets, leaves the same object and, for an accepted set, the same polynomial. If the recursion is maximal, the outputs have the least period 2^127-1 from every non-zero state, with either macro or none and any tempering matrix. With NON_LINEAR the output is that of tinymt32_temper in tinymt32.h, and for no parameters is it a linear function of the state, so the calculation of the equidistribution is not justified. With NO_TEMPER the calculation gives the exact dimensions of the first word of the state in both orders, and no tempering pattern changes an output or the sum of the defects.", "quantifier": "all parameters, states, parameter sources, numbers of turns, tempering patterns; every primitivity test that is right in degree 127; all functions that meet the contract of NTL's MinPolySeq", "why_tests_cant": "no program of the repository is built with either macro, and a period of 2^127-1 cannot be run through", "anchors": ["samples/TinyMTDC/tinymt32search.hpp: temper", "test/tinymt32.h: tinymt32_temper", "include/MTToolBox/AlgorithmRecursionSearch.hpp: start"]}
{"id": "C129", "title": "TinyMT returns every number equally often in a period", "statement": "If the recursion of a TinyMT32 parameter set is maximal, then from every non-zero state each 32-bit number comes exactly 2^95 times among the 2^127-1 outputs of one period, and 0 comes 2^95-1 times. This holds for every tempering matrix, for the class tinymt32 with NON_LINEAR, with NO_TEMPER and with neither, and for tinymt32_generate_uint32 of tinymt32.h with and without LINEARITY_CHECK, although the tempering without it is not linear. Hence tinymt32_generate_float returns each of the 2^24 multiples of 2^-24 in [0,1) 2^103 times, 0 once less, and tinymt32_generate_32double, whose comment excludes 0, returns 0 exactly 2^95-1 times. The objects of Tiny32 in the tests are such, whatever the seed.", "quantifier": "all maximal recursion parameters, tempering matrices, non-zero states, sets of numbers, both macros and none; every rounding that is exact on representable numbers", "why_tests_cant": "a period of 2^127-1 outputs cannot be run through", "anchors": ["samples/TinyMTDC/tinymt32search.hpp: temper", "test/tinymt32.h: tinymt32_temper", "test/tinymt32.h: tinymt32_generate_float", "test/tinymt32.h: tinymt32_generate_32double"]}
{"id": "C130", "title": "How far get_range is from uniform", "statement": "Let a range have n values. Of the 2^w words of w bits, get_range takes 2^w/n (rounded down) to each value of the range and one more to each of the first 2^w mod n values. So all values have equally many words exactly if n is a power of two not above 2^w. During any full period of MersenneTwister::getUint32 after any legal seeding call, value number i of the range comes exactly 2^19905 times as often as it has 32-bit words, the first value once less; with MersenneTwister64::getUint64 2^19873 times as often as it has 64-bit words, the first value once less.", "quantifier": "all ranges whose length fits in an int, all word sizes, all seeds and keys, all earlier contents of the object, all starting points of the period", "why_tests_cant": "the documentation only says that the conversion may not be uniform; a count over 2^64 words or over a period of 2^19937-1 cannot be run", "anchors": ["include/MTToolBox/util.hpp: get_range", "include/MTToolBox/MersenneTwister.hpp: getUint32", "include/MTToolBox/MersenneTwister64.hpp: getUint64"]}
{"id": "C131", "title": "All Mersenne Twister streams are one stream, and how many numbers predict the next", "statement": "Any two MersenneTwister objects after any legal seeding calls return one and the same stream of getUint32 results, entered at places that differ by exactly one number K below 2^19937-1; their getUint64 results are one stream too, entered at places that differ by the one number L with 2L = K modulo 2^19937-1. For MersenneTwister64 one number serves both functions. 624 consecutive getUint32 results of MersenneTwister (312 getUint64 results of MersenneTwister64), taken anywhere, determine all later ones whatever the seed was. One fewer do not: 623 results that are not all zero are followed by exactly two different words (311 by exactly 2^33 different words), if all zero by one (2^33-1).", "quantifier": "all pairs of objects with all earlier contents, all seeds and keys, all places in the streams, all tuples of 623 (311) words", "why_tests_cant": "the distance between two streams is a number of up to 19937 bits, and that 623 words never suffice is a statement about all tuples of a period that cannot be run through", "anchors": ["include/MTToolBox/MersenneTwister.hpp: getUint32, getUint64, seed, seed_array", "include/MTToolBox/MersenneTwister64.hpp: getUint64, getUint32, seed, seed_array"]}
{"id": "C132", "title": "The numbers of the other width of both Mersenne Twister classes are 311-dimensionally equidistributed", "statement": "After any legal seeding call, in any full period of MersenneTwister::getUint64 results every tuple of 311 consecutive 64-bit words occurs exactly 2^33 times, except the zero tuple, which occurs once less; in any full period of MersenneTwister64::getUint32 results every tuple of 311 consecutive 32-bit words occurs exactly 2^9985 times, the zero tuple once less.", "quantifier": "all object contents, all seeds and keys, all starting points of the period, all tuples", "why_tests_cant": "the period of 2^19937-1 numbers cannot be run through", "anchors": ["include/MTToolBox/MersenneTwister.hpp: getUint64", "include/MTToolBox/MersenneTwister64.hpp: getUint32"]}
{"id": "C133", "title": "The linear complexity of the Mersenne Twister outputs", "statement": "For each of the two Mersenne Twister classes there is one irreducible polynomial over GF(2) of degree 19937 that is the minimal polynomial of every sequence made of XORs of chosen bits of its results, whichever bits are chosen (at least one), whatever the seeding was, and for getUint32 as well as getUint64. So no non-empty set of places within 19937 consecutive results of MersenneTwister::getUint32 has the property that the XOR of the chosen bits at these places is always zero.", "quantifier": "all seeds and keys, all earlier contents of the object, all masks of bits, all finite sets of places", "why_tests_cant": "the minimal polynomial can be computed for one mask and one seed only at a time; that it is the same for all 2^32-1 (2^64-1) masks and all seeds cannot be enumerated", "anchors": ["include/MTToolBox/MersenneTwister.hpp: getUint32, getUint64", "include/MTToolBox/MersenneTwister64.hpp: getUint64, getUint32"]}
{"id": "C134", "title": "After a successful search every output bit has the polynomial found", "statement": "If AlgorithmRecursionSearch::start returns true, then for the parameters left in the generator: for any choice of output bits their XOR is either always zero, from every state, or its sequence has the polynomial returned by getMinPoly as its minimal polynomial, from every state that is not zero. So minpoly(poly, generator, pos) delivers for every bit position this same polynomial from every state that is not zero, or, if the bit is always zero, the polynomial 1; for position 0 it is always the polynomial found.", "quantifier": "every class that satisfies the contract of the search, every source, every number of tries, all states, all bit positions and masks", "why_tests_cant": "tests compute the polynomial for one bit of one state; independence of the state and of the bit ranges over all states and all generators", "anchors": ["include/MTToolBox/AlgorithmRecursionSearch.hpp: start, getMinPoly", "include/MTToolBox/period.hpp: minpoly"]}
{"id": "C135", "title": "All streams of Tiny32 are one stream, and so are all streams of Tiny64", "statement": "Any two objects of the test class Tiny32 with whatever seeds, and any two structs with its parameters and non-zero effective states, return the same sequence of numbers entered at different places: there is exactly one K below 2^127-1 such that the numbers of the second are the numbers of the first from the K-th on. The same holds for Tiny64 and tinymt64_generate_uint64. So seeding does not choose between sequences but only a starting point, and streams of two seeds overlap after fewer than 2^127-1 numbers.", "quantifier": "all seeds, all pairs of non-zero effective states, both settings of LINEARITY_CHECK, all positions", "why_tests_cant": "the distance is of the order of 2^127 and cannot be reached by running; the claim is about all pairs of states", "anchors": ["test/tinymt32.h: tinymt32_next_state, tinymt32_generate_uint32", "test/tinymt64.h: tinymt64_next_state, tinymt64_generate_uint64", "test/test_generator.hpp: Tiny32, Tiny64"]}
{"id": "C136", "title": "With LINEARITY_CHECK Tiny64 returns every number equally often, and always the low 55 bits", "statement": "Compiled with LINEARITY_CHECK, tinymt64_generate_uint64 with the recursion parameters of Tiny64 and any even tempering matrix returns from every non-zero state each 64-bit number exactly 2^63 times among the 2^127-1 outputs of one period, and 0 2^63-1 times; so the objects of Tiny64 do, whatever the seed. Hence, compiled so, tinymt64_generate_double of these objects returns each of the 2^53 multiples of 2^-53 in [0,1) 2^74 times, 0 once less. Whether LINEARITY_CHECK is defined or not, the low 55 bits of the numbers take each of the 2^55 values 2^72 times in one period, 0 once less, although the tempering without it is not linear. The matrix has to be even: with an odd one tinymt64_generate_uint64 returns even numbers only, for all other parameters and states, with and without LINEARITY_CHECK.", "quantifier": "all even tempering matrices, non-zero states, seeds, sets of numbers, both settings of LINEARITY_CHECK for the low bits; every rounding that is exact on representable numbers; the last sentence: all parameters, states and positions", "why_tests_cant": "a period has 2^127-1 numbers; no run can count them", "anchors": ["test/tinymt64.h: tinymt64_next_state, tinymt64_temper, tinymt64_generate_uint64, tinymt64_generate_double", "test/test_generator.hpp: Tiny64"]}
{"id": "C137", "title": "xorshift-4 prints exactly the parameters with which every quadruple of numbers comes once", "statement": "With a parameter set that xorshift-4.cpp prints, from every state that is not zero each of the 2^128-1 quadruples of 32-bit numbers other than 0, 0, 0, 0 is returned by four consecutive calls of generate at exactly one place below 2^128-1, and 0, 0, 0, 0 never; so quadruples with any given property come as often as there are such quadruples, not counting 0, 0, 0, 0. Conversely every parameter set (pattern below 8, shift amounts below 32) with which each quadruple other than 0, 0, 0, 0 comes exactly once is printed. With every parameter set four consecutive numbers determine all later ones, and with a printed set the numbers from any two states that are not zero are one sequence entered at different places.", "quantifier": "all parameter sets, states, quadruples and properties of quadruples; every MinPolySeq that meets its specification", "why_tests_cant": "a period has 2^128-1 numbers and the claim ranges over all 2^18 parameter sets and all states", "anchors": ["samples/XORSHIFT/xorshift-4.cpp: main, search, XorShift::generate, setUpParam"]}
