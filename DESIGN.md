# Formal model of MTToolBox – design

Source: `/repo` (C++ header library + samples), read as text, never built or run.
Everything is in Lean 4.33 (`/verif/lean`), with single Mathlib modules imported.

## Method

* Each C++ function that matters for a property becomes one small total Lean
  function with the same control flow; the doc comment cites file and lines.
* Machine words are `BitVec w`; C++ unsigned wrap-around is `BitVec` arithmetic.
* Undefined behaviour is a separate outcome (`none` / a `Trap` constructor) where a
  property is about it; elsewhere the precondition that excludes it is a hypothesis.
* Loops are structural recursion or take fuel; when fuel is used a theorem shows
  that an explicit amount is always enough.
* External code (NTL) is not modelled as code: a polynomial is Mathlib's
  `Polynomial (ZMod 2)`, and the NTL primitives (`GCD`, `PowerXMod`, `IterIrredTest`,
  `MinPolySeq`, `kernel`, `XGCD`) are replaced by functions *specified* by their
  documented mathematical result.
* Generators are abstract objects with the operations of the C++ interfaces
  (`generate`, `generate(int)`, `add`, `setZero`, `clone` …); "linear generator" is
  a contract (`den : State → S`, `S` a vector space over `ZMod 2`) and the sample
  generators are proved to satisfy it.

## Plan per property

| id | modelled | how proved |
|----|----------|-----------|
| C01 | three `count_bit` overloads on `BitVec` | field-wise SWAR lemmas, equality with the sum of bits |
| C02, C03 | `calc_1pos` with the signed negation as a step that may trap | lowest set bit arithmetic on `Nat`; exact UB set |
| C04 | both `reverse_bit` overloads | bit extensionality against `BitVec.reverse` |
| C05 | `floor2p` with fuel | strong induction; divergence at 0 for every fuel |
| C06 | `get_range` | modular arithmetic |
| C07 | `fill_table` double loop | induction on bits, XOR homomorphism |
| C08, C09, C10 | conversions and bit access, shift amounts as `Int` with trap | induction / extensionality |
| C11 | `LCM` over `Polynomial (ZMod 2)` | gcd domain algebra |
| C12, C13 | `Sequential` as a state machine | invariants over call histories, closed form |
| C14–C19 | both Mersenne Twisters with their ring buffers | refinement to the recurrence, invariant on written cells, bit-level inverses |
| C20 | `TestLinearity::operator()` | induction over the 2×100 steps |
| C21 | `annihilate` loop | `Polynomial.aeval` |
| C22–C25 | PIS algorithm with entries `(rand,count,zero,next)` | lattice of formal sequences, generating-set invariant, reduced basis, termination measure; `Concrete.lean` uses these and the theorems on searches for xorshift-1.cpp and counts the windows of one period |
| C26–C31 | `period.cpp`, factor tables | finite-field algebra over `AdjoinRoot`, Lucas/Pratt certificates checked in the kernel |
| C32–C34, C55 | `minpoly`, searches | uniqueness of linear recurrences, induction over tries |
| C35–C37 | tempering searches over an abstract defect function | loop invariants |
| C38–C46, C51–C54 | sample generators and `w128_t` | bit extensionality, ring-buffer rotation |
| C60, C62 | `mtgp32` (`isZero`, `setUpParam`) | ring buffer with a partly used oldest word |
| C57, C58, C59, C61 | combined search, the TinyMT and MTGP creator programs, the measurement on a copy | composition of the earlier theorems |
| C63 | `AlgorithmSIMDEquidistribution.hpp` over an abstract block generator with start and weight modes, and `sfmt` | the lattice theorem of C22 for each mode; the modes are windows of one stream of words |
| C64 | `AlgorithmDSFMTEquidistribution.hpp` (the same model, other lanes and modes) and `dSFMT` | as C63, with the 52 lower bits of each half as words |
| C65, C66 | both `Annihilate.cpp` over an abstract reducible generator, then `sfmt`, `dSFMT` (`Verif/Anni`) | minimal polynomials of sequences and states on the invariant subspace; observability of the two recursions |
| C67 | `sfmtdc.cpp` from the accepted exponent to the printed lines (`Verif/Samples/SFMTDC`), search, parity, `anni`, the three measurements | `RFamily` instance for `sfmt`; `Hit` (what a successful search leaves) carried through C49, C48, C65, C22, C63 |
| C68 | `dSFMTdc.cpp` from the accepted exponent to the printed lines (`Verif/Samples/DSFMTDC`): search, `getLCMPoly`, `calc_fixpoint`, parity, `anni`, `annihilate`, the measurement | `RFamily` instance for `dSFMT`; the polynomial of `getLCMPoly` need not annihilate the whole state space, but the fixed point computed from it differs from the true one by an element of `f(T)(Low)`, to which the parity vector is orthogonal (`calcFixpoint_shift`, `certified_period_fix`) |
| C69 | `getParamString` of `sfmt`, `dSFMT`, `RMT64` and the argument parsers of the tools (`Verif/Samples/LineText`): `ostream` with `dec`/`hex`/`setw`/`setfill`, `strtoull`/`strtoul` with base 10 and 16 on lists of characters; reading behind the terminating zero is `none` | digits are read back by induction on the number; the parse is a composition of single fields |
| C70, C71 | `main` of `sfmtdc/calc_equidist.cpp` and `sfmtdc/calc_parity.cpp` from the argument text to the printed line (`Verif/Samples/SFMTTools`) | C69 for the text, then C65, C49, C48, C22, C63; the large component is determined by the parameters (`Anni.root_unique`), hence the deltas are |
| C72, C73 | `main` of `calc_equidist.cpp`, `calc_fixpoint_main.cpp`, `calc_parity_main.cpp` in `dSFMTdc` from the argument text to the printed line (`Verif/Samples/DSFMTTools`) | C69 for the text; `FixPoint` says what a fixed point is without the algorithm, and C48 is proved from it (`certified_period_fix`) |
| C74 | the constructor and both methods of `AlgorithmReducibleEquidistribution` (`Verif/Search/Reducible`) | a generator seen through its outputs is again a linear generator (`LinGen.obs`), on which the loop of C55 is analysed without injectivity; `Component` and `Full` are the specifications |
| C75, C76 | `main` of `calc_equidist.cpp` and `calc_period.cpp` in `RMT` from the argument text to the printed numbers (`Verif/Samples/RMTTools`) | C69 for the text, C74's analysis for the component, C28's primes for the period |
| C77 | `AlgorithmReducibleRecursionAndTempering::search` without `verbose` (`Verif/Search/ReducibleRT`) | C49, C56, C74 combined; tempering searches by contract `Tempers`; counterexample with a register of three bits |
| C78, C79 | the calls of the two Mersenne Twister classes as in C14–C18; `Delivers`, `HasPeriod` and `occurrences` (`Verif/MT/PeriodProps`) are the specification | `Verif/GF2/MTChar` gives the characteristic polynomial of any recurrence of this type in closed form and proves that it annihilates the state; `Verif/GF2/Engine` multiplies in GF(2)[X]/p with big natural numbers (15 bits per coefficient, Barrett quotient) and proves the result; 19937 squarings of X evaluated by the kernel in chunks of 1000 (`MT32a` … `MT64d`, constants in the generated files `MT32`, `MT64`) give p ∣ X^(2^19937) - X; with the primality of 2^19937-1 (C28) p is primitive, so there is one orbit of non-zero states (`Verif/MT/Orbit`) |
| C80 | `test/tinymt32.[ch]`, `test/tinymt64.[ch]` (`Verif/Samples/TinyRef`): `next_state`, `init`, `init_by_array`, `period_certification`; the struct also holds the parameters | the effective state is 127 bits, the step on it is the linear map of C40 (32 bit) or `TL` (64 bit), injective for all parameters; the seeding loops are inverted explicitly; the certification excludes the zero state |
| C81 | the same with the parameters of the classes `Tiny32`, `Tiny64` of `test/test_generator.hpp` | `Verif/GF2/Cert`, `Verif/GF2/Small`: the characteristic polynomials are given as numbers; the kernel checks that X has order 2^127-1 (C28: a prime) and that the polynomial annihilates one state, hence all; an observation that is not constant then has the full period (`fun_period`: the tempering of the second variant is not linear) |
| C82 | the floating point functions of the same headers over the rationals; the rounding of each operation is a parameter `rnd` of which only `Rounds` is assumed; the `union` conversions decode IEEE 754 bit patterns | every intermediate value is shown to be representable |
| C83 | the classes of xorshift-1/2/5.cpp and `main` of xorshift-1.cpp (`Verif/Samples/XorShiftFixed`), `xorshift128_generate`; `stream`, `HasPeriod`, `occurrences` (`Verif/Spec/Stream`) are the specification | as C81 with the prime divisors of 2^128-1 (C30); four consecutive words are the state, so the tuples are counted by the orbit; `main` by C32, C29 |
| C84 | the class and `main` of xorshift-3.cpp (`Verif/Samples/XorShift3`), with `Sequential`, `AlgorithmRecursionSearch`, `AlgorithmPrimitivity` and the PIS algorithm as modelled for C32, C33, C62 | the class is pattern 5 of xorshift-4.cpp with the parameters renamed; induction over the words the source still delivers |
| C85 | the class and `main` of mt1.cpp (`Verif/Samples/MT1`); the specification is `Verif/Spec/MTRef` and `Dist`, which speaks of returned values only | the object is embedded into the class of mt2.cpp (C42), whose step is the recurrence of C14; primitivity from C78; k(1) from C86, k(32) because 623 consecutive words are all but one bit of the state |
| C86 | nothing new (`Verif/PIS/Bounds`) | a linear functional that vanishes n times vanishes for ever by Cayley-Hamilton, hence on all states, which are one orbit; n independent functionals on n bits |
| C87 | `main`, `search` and the option `mexp` check of mt2.cpp (`Verif/Samples/MT2`); the source of parameters is any sequence, option parsing and the formatting of the line are not modelled; the specification `GoodLine` speaks of the recurrence written out | composition of C27/C28/C35 with C42; primality of 2^mexp-1 from C28, so the only assumption is that of NTL's MinPolySeq; acceptance of MT19937 from C78 |
| C88 | `main` and `search` of rmt64dc.cpp with the recursion search, the parity search on the 64-bit class, the partial bit pattern search and the measurement (`Verif/Samples/RMTDC`); the meaning of `1 << r` is a parameter (`intOneShift` is the standard's); option parsing and formatting are not modelled; `GoodLine` speaks of the words written out by recursion (`IsWords`) | composition of C33-C39 with C74/C75; primality of 2^mexp-1 from C79; a run with exponent 521 by a certificate for a factor of degree 521 |
| C89 | `setUpParam` with SFMT_PARAM_FIXED (`setUpFixed`), the program with it (`dcFixed`, `Verif/Samples/SFMTDC`); the statement of a good line is that of C67; `HasLarge` speaks of the minimal polynomial of the lowest output bits | the loop is proved for every way of choosing parameters in range (`SetUpOK`); a try with a large factor succeeds (`Anni.rStart_finds`); SFMT607 by a certificate: a primitive polynomial of degree 607, the state after `seed`, and a multiplier of degree 33 (`Verif/Samples/SFMTDCExample`) |
| C90 | the program of C68 (`Verif/Samples/DSFMTDC`); `GoodLine` now also bounds `pos1`; the published parameters are written in `Verif/Samples/DSFMTDCExample` | `Anni.rStart_finds`; the bound on `pos1` is carried through the search by adding it to the invariant (`RFamily.and`); certificates for factors of degree 1279 and 521 |
| C91 | the seven `parse_opt` (`Verif/Samples/Options`: `strtol`, `strtoull`, `errno`, the option loops, the operands; `getopt_long` and the file system are the boundary) and the seven `main` (`Verif/Samples/Programs`), with the model of MersenneTwister(64) as random source; `errno` is 0 at the start; messages, `-v` output and exit codes are not modelled | `IsNumeral` specifies a decimal number in front of a text without reference to the reader; the option loop is characterised once (`readOpts_good/_bad/_field`) for every program; then the theorems C67, C89, C68, C88, C87, C61, C58 are applied. `--fixed 0` is not covered |
| C92 | `RTiny32`, `RLittle32` (`Verif/Tests/Gen`), `test_period.cpp` (`Verif/Tests/PeriodTest`: texts and exit code); Tiny32/Tiny64 by the model of TinyMT; `MinPolySeq` by its contract | certificates (packed numbers, `Verif/GF2/Irred`): a polynomial annihilates the sequence (evaluated in the kernel), it is irreducible / primitive / a product of known factors, the sequence is not zero; hence it is the minimal polynomial |
| C93 | the table, `isPrime(poly, n, table)` and `test_rtiny.cpp` (`Verif/Tests/RTinyTest`; the numbers of `mt` are an arbitrary stream; the number of turns is a parameter) | order of the root of an irreducible polynomial; a concrete polynomial of order dividing (2^128-1)/67280421310721 checked in the kernel; induction over the turns |
| C94 | `test_equidist.cpp` (`Verif/Tests/EquidistTest`), with the models of TinyMT and of AlgorithmEquidistribution; the loops of the algorithm are bounded by a parameter, and the theorem gives a sufficient bound | Gaussian elimination over packed numbers in the kernel (`Verif/GF2/Rank`): the windows of the first v bits of 127/v outputs have full rank, for the 20 pairs from which all 32 follow; `equidist_of_check` proves the elimination sound; the orbit passes through every state that is not zero |
| C95 | the seven other tests and the class `Tiny32` of `test_temper_searcher.hpp` (`Verif/Tests/Suite`); `reverse` is left out (nothing reads it); the numbers of `mt` are a parameter of the searches and MT19937 with seed 5489 in the concrete theorems; `VERSION` is a parameter | the general search theorems (C33, C35, C57) with the class as a family; `start_first` by induction; certificates checked by the kernel (`Verif/Tests/SuiteCert`): the first 198 numbers, for each of 98 pairs a polynomial of degree below 127 with a non-zero state it annihilates, the primitive polynomial of the next pair and the rank of its output windows; an irreducible polynomial of degree 127 has an odd number of terms; the seeding with an array is simulated on packed numbers (`Verif/Tests/MTWords`) |
| C96 | `main` of test_rlittle.cpp with the class `RLittle32` (`Verif/Tests/RLittleTest`); the numbers of `mt` are a parameter, the turns are followed up to a number that is universally quantified | induction over the turns with the meaning of the three variables as invariant; the end for the real numbers by certificates checked by the kernel (`Verif/Tests/RLittleCert`): MT19937 rolled 4032 steps, the irreducible polynomial of degree 543 of turn 194, the factor of degree 521 of turn 672 (the object of C92) |
| C97 | `main` of xorshift-2.cpp, xorshift-5.cpp, slide/xorshift-22.cpp and xorshift128_main.c with their output (`Verif/Samples/XorShiftTable`); `setw`, `dec`, `printf("%8x ")` are modelled from the standards | lower bounds by ranks (`Verif/GF2/Rank`), upper bounds by linear relations between output bits that hold for all states (`Verif/GF2/NotEquidist`), both evaluated by the kernel; with C83 the programs print these numbers |
| C98 | `main` and `min_max_poly` of sfmtdc/test_period.cpp and dSFMTdc/calc_period.cpp (`Verif/Samples/PeriodTools`); the printed decimals are given as numbers | the classes with a weight mode are simulated by the class in full weight mode, of which the kept bits are those of the previous output (`Sim` in `Verif/Anni/Modes`); with C65 the state after `anni` lies in the component, where the minimal polynomial of a bit has degree mexp or 0; start modes are selections of bits of two consecutive words |
| C99 | `main` and `get_fixpoint` of dSFMTdc/make_old_format.cpp and `printBinary` (`Verif/Samples/OldFormat`); options and a missing argument are not modelled | position of every character of the text by induction; the factor and the common multiple by the theorems behind C61/C62 (`factor_step`, `getLCMPolyD_correct`); the lungs determine the state (`obs`), so a common annihilator of the lung bits annihilates the state |
| C100 | `main` of test_linearity.cpp of sfmtdc, dSFMTdc and MTGPDC with `set_param` (`Verif/Samples/LinearityTools`) | the linear-generator contract of the classes for every mode (C45, C51) with C20; for MTGPDC the members that no output depends on are replaced so that the contract of C52 applies (`strip`) |
| C101 | `main`, `test_parity0` and `d_p` of calc_parity.cpp (sfmtdc) and calc_parity_main.cpp (dSFMTdc) (`Verif/Samples/ParityTest`); the reading of the options is not modelled | `Verif/Anni/See`: if the lowest bit of one state shows the large component it shows it for exactly the states outside the small part, because the parts not seen would be too large together; a state that `annihilate` made is in the small part, the parity vector is orthogonal to it (C49), and certification moves it out (C47); induction over the turns |
| C102 | `main`, `get_fixpoint`, `chk_fix1`, `chk_fix2` of calc_fixpoint_main.cpp (`Verif/Samples/FixTest`); the reading of the options and the texts under `DEBUG` are not modelled | the objects of the check are images of the affine constant under polynomials in the transition; with the two Bézout identities the difference that `chk_fix2` tests is a multiple of `f q` applied to the constant (`chkFix1_correct`); factor and common multiple as in C73 |
| C103 | `main` and `parse_opt` of the three calc_equidist.cpp with the tables of `-v` (`Verif/Samples/EquidistMain`); the help texts on `cerr` are not modelled | the loop over the options by induction; the measured arrays by C13, C63; the tables as texts against a separate specification of a line (`lineText`); uniqueness of the large component for the independence of the seed |
| C104 | GNU `getopt` for options without arguments (permutation of the arguments, clusters, `--`; POSIXLY_CORRECT unset; its messages on the standard error output are not modelled) and the three functions `option` (`Verif/Samples/Getopt`); `getopt` is code of the C library, so its model is part of the trusted base | an invariant of the loop: the letters not yet read, each with the arguments behind it; joined with C101 and C102 |
| C105 | GNU `getopt_long` with the nine tables of options, and the loops that call it (`Verif/Samples/GetoptLong`); POSIXLY_CORRECT unset, the messages of `getopt_long` are not modelled; `getopt_long` is code of the C library, so its model is part of the trusted base | the specification `Reads` is an inductive relation between arguments, options and operands that knows nothing of the scan; shown total, functional, and equal to what the loop delivers by induction over it; an error makes the rest of the line irrelevant because `readOpts` stops there |
| C106 | `option` of make_old_format.cpp with a model of GNU `getopt` that keeps the whole array and exchanges arguments when `getopt` of the C library does (`Verif/Samples/OldCommand`); this model is part of the trusted base | induction over the arguments and over the letters of a cluster; the text of the option has no nine fields; joined with C99 |
| C107 | what the seven search programs write to `cout`, as characters (`Verif/Samples/SearchText`); `cerr` is not modelled; the last four programs without `-v`; the texts of `ctime` are parameters | the programs of C91; every cell is free of commas and line feeds, so that a text is cut in one way only; the numbers are those of Lean's `toString` and `Nat.toDigits` |
| C108 | `print_binary` and `poly_sha1` as functions to texts, and the member `sha1` of `mtgp_param` with `USE_SHA` (`Verif/Samples/PolyText`); SHA-1 is a parameter about which nothing is assumed; degrees below `2^31 - 1` | the loops are lists of coefficients; the text is cut at the character `d`; reading back the cell by induction over the array |
| C109 | the four algorithms with `verbose` as functions to a result and a list of writes, each to `cout` or to `os` (`Verif/Search/Verbose`); `getParamString` and the table are parameters with a contract (`Honest`), the texts of `ctime` are parameters; `tinymt32dc -v` with all its writes (`Verif/Samples/TinyMTVerbose`) | projection to the models without texts by induction over the loops; the text of every step and the last lines from the invariants of C35, C37; the lines between as a relation (`MidLines`); the number of turns of tinymt32dc is bounded because its source ends |
| C110 | the main loops of the three programs with all their writes (`Verif/Samples/MT2Verbose`, `MTGPVerbose`, `RMTVerbose`), built from the searches with `verbose` of C109; the digest of MTGP32dc is a text of its own (C108) | instances of the contract of C109 for the three generators, then induction over the loops of the programs; for rmt64dc, whose `getParamString` changes the object, a separate argument that the masks are already clean where it is called before the tempering |
| C111 | the model of the two classes of C14–C18 (`Verif/MT/Model`); nothing new is modelled | both mixing loops are written as one recurrence along the array, from which the words can be solved for the key words backwards (`Verif/MT/SeedInj`); the limit by a key word that enters one word twice, where the step is not one-to-one because of its lowest bit; streams by the injective step on the 19937-bit state and, for "infinitely often", the period of the difference of two streams (C78) |
| C112 | the model of the reference code of C80 (`Verif/Samples/TinyRef`); nothing new is modelled | each step of the first loop is one-to-one in the array and in the key word, each step of the second in the array, because `ini_func1` and `ini_func2` are bijections (`Verif/Samples/TinyKeyProps`); four = two (the ignored bit of the state) times two (the zero state, replaced by the certification). For tinymt64 only the array is covered: its four words are folded into two, and nothing is claimed about the generators |
| C113 | the models of the seven classes; nothing new is modelled | the words after `seed` are those of a recurrence whose step is one-to-one (odd multiplier, xorshift), so the last word determines the first (`Verif/Samples/SeedLoop`); a zero word is followed by its number; streams by the cyclic decomposition (a functional that vanishes on an orbit of maximal period vanishes), for SFMT by observability (`Verif/Samples/SeedProps`). Nothing is claimed about the outputs of different seeds of rmt64 and dSFMT beyond the states |
| C114 | the models of the classes and the setters missing there (`Verif/Samples/Setters`) | `generate` commutes with a change of the flag (so by induction for every number of calls), the bits of the reversed word from C04 and C46; for the modes the object after `k` calls is the object after `k` steps with the window shown last in `previous` (`Verif/Samples/SettersProps`) |
| C115 | the models of the searches (C33, C56) and of `setUpParam` of the classes; the source is a function of the number of the call | one turn accepts exactly the qualifying sets (C33, C56 and C113: the outputs after `seed(1)` depend on the parameters only), then induction over the turns (`Verif/Search/First`); the numbers taken and the parameters made of them class by class (`Verif/Samples/FirstProps`), the theorems of the classes and runs that take the second and the first set (`Verif/Samples/FirstClass`) |
| C116 | the constructor with its string stream (unread characters and the state `eof`), `Verif/Period/Tables`; NTL's `>>` for `ZZ` by its documented syntax | induction over the strings, with a specification of texts that consist of numbers (`Verif/Period/CtorProps`) |
| C117 | `d_p` of both classes as a text (`dumpText`, `Verif/Samples/ParityTest`) | a text is determined line by line, a line digit group by digit group (`Verif/Samples/DumpProps`) |
| C118 | the models of C22 and C33; nothing new is modelled | an accepted set has a primitive characteristic polynomial and a lowest bit that is not constant; the orbit of a state exhausts the space (`orbit_all`), and a functional that vanishes on an orbit vanishes (`Verif/Search/CycleProps`) |
| C119 | the model of C87; nothing new is modelled | whether a set is accepted does not depend on the masks left by the previous tempering search (some output is odd for all masks); the loop over `start` stops at the first such set (`Verif/Search/FirstRT`); the sets kept by the tempering search depend only on the measured defects, which are the same from all states that are not zero (`best_spec`); induction over the loop of `main` (`Verif/Samples/MT2First`, `MT2FirstProps`, run that prints two lines in `MT2FirstExample`) |
| C120 | the model of C61; nothing new is modelled | `AlgorithmPartialBitPattern` sees of a generator only the measured defects (`partialBitPattern_rel`, two runs stay related: `Verif/Temper/Rel`); with the greatest period the defect is the same from all states that are not zero and for all uninitialised contents (`best_spec`); `findLoop_first` for the search; induction over the ids (`Verif/Samples/MTGPFirst`, `MTGPFirstProps`; in `MTGPFirstExample` a set of 521 bits with the greatest period, proved by certificate, and the run that prints it) |
| C121 | the models of C88, C89 and C90; nothing new is modelled | specification in `Verif/Search/Picks` (`Takes`, `TakesNone`, `Picks`: the first index that qualifies, the first one behind it, ...); `rStart_first` of C115 for one call, induction over the lines (`Verif/Samples/SFMTSets`, `DSFMTSets`, `RMTSets`); for rmt64dc the masks of the previous line are carried along, and a run that does not end within the fuel has got stuck in a stretch without qualifying sets. In `SetsExample`: sources that repeat the published SFMT607 and dSFMT1279 make the programs print these over and over |
| C122 | the models of C89 and C90; nothing new is modelled | the sets taken are determined by C121 (`picks_prefix`, `picks_cases`), the sums by the uniqueness of the large component and of the greatest dimensions (`line_unique`) (`Verif/Samples/Repeat`, `RepeatExample`) |
| C123 | the model of C58; nothing new is modelled | relational argument: two runs of the tempering searches on objects with the same parameters (`related`, `measure_same`), then induction over the search (`Verif/Samples/TinyMTFirst`) |
| C124 | the models of C58, C105 and C107; nothing new is modelled | C123 with certificates that the kernel checks: for each of the 112 numbers a polynomial of small degree that annihilates a state, then the primitive polynomial of `Tiny32`, and ranks for the defect without tempering (`Verif/Samples/TinyMTCert`, `TinyMTDefault`, `TinyMTDefaultText`). The tempering matrix and its delta are not computed: that would be some hundred runs of the equidistribution algorithm in the kernel |
| C125 | the model of C58; nothing new is modelled | C123 and the injectivity of `setUpParam` (C44) (`Verif/Samples/TinyMTDistinct`) |
| C126 | the models of C119 and C120; nothing new is modelled | corollaries of C119 and C120: the lines are those of the first sets of the source, and the first set of an id is unique (`Verif/Samples/RepeatMore`, `RepeatMoreExample`) |
| C127 | the model of the reference code of C80; nothing new is modelled | C80 and C81: all non-zero states lie on one cycle, so equal streams have equal effective states; the seeds that collide are witnesses checked by the kernel (found by lifting solutions bit by bit, because the multiplications do not carry downwards) (`Verif/Samples/TinySeedStreams`) |
| C128 | `temper` with the macros `NON_LINEAR` and `NO_TEMPER` and the interface of the class built on it (`Verif/Samples/TinyMTVariants`) | addition and exclusive or agree in the lowest bit, which is all that the search looks at; two states with outputs 2, 2 and 4 for the sum, for every parameter set; the contracts of C22 and C33 for `NO_TEMPER`; the period from the primitivity of the recursion and two states with different outputs (`Verif/Samples/TinyMTVariantsProps`) |
| C129 | nothing new: the functions of C82 and C128 | the output together with the first three words after the step determines the state, also with the addition: a change of the highest bit of the dropped word passes through the sum unchanged, which leads to a contradiction; so each value has 2^95 states, and the non-zero states are met once each in a period (`Verif/Samples/TinyMTUniform`) |
| C130 | nothing new: `get_range` of C06 and the classes of C79 | the words with a given remainder are counted; the distribution of 623-tuples (311-tuples) over the period gives that of single words (`Verif/Util/RangeDist`) |
| C131 | nothing new: the classes of C14 and C16 and the streams of C78 | all states that are not zero lie on one cycle (the orbit argument of C78), and n words fix the state; the next words are counted with C79 (`Verif/MT/OneStream`) |
| C132 | nothing new: the classes of C14 and C16 and the streams of C78 | C79 summed over the words or halves that are not looked at; the pairs of `getUint64` begin at every second place, and doubling runs through all places of the odd period (`Verif/MT/OtherCount`) |
| C133 | nothing new: the classes of C14 and C16; minimal polynomials as in C32 | the characteristic polynomial of the state annihilates every linear observation and is irreducible (C78); the observation is not zero by C79 and C132; every second element satisfies the same recurrence since p(X^2) = p(X)^2 (`Verif/MT/Complexity`) |
| C134 | nothing new: `minpoly` and the search of C32 and C33 | the polynomial found is irreducible and annihilates every linear observation, and an observation that is zero along the cycle of C118 is zero (`Verif/Search/ComplexityProps`, a case in `Verif/Concrete`) |
| C135 | nothing new: the reference code of C80 and C81 | every non-zero effective state is passed within one period, equal effective states give equal numbers, and a stream with that least period shows another from one place only (`Verif/Samples/TinyOneStream`) |
| C136 | nothing new: the reference code of C80, C81 and C82; for the tempering without `LINEARITY_CHECK` only the low 55 bits are claimed (nothing is shown about the upper 9 bits together with them) | the number and 63 bits of the word before the shifts determine the effective state; the low 55 bits of the number, the 63 effective bits of the first word and the upper 9 of the second do so with either tempering; every non-zero state is passed once (`Verif/Samples/TinyUniform64`) |
| C137 | nothing new: the class and the program of C38 and C13 | the state after four calls consists of the four numbers returned; one period passes every non-zero state once, and conversely a sequence that shows every quadruple once returns after exactly 2^128-1 steps (`Verif/Samples/XorShiftTuples`) |
| C47–C50 | certification, parity search, fixed point | linear algebra over `ZMod 2` |

## Trusted base

* Lean 4.33 kernel. No axioms are added. `#print axioms` of the theorems named in MANIFEST.json
  gives, for every one of them, a subset of `propext`, `Classical.choice`, `Quot.sound`: about nine in ten
  depend on all three, the others on `propext` and `Quot.sound`, on `propext` alone, or on none.
  Certificates are checked by the kernel (`decide +kernel`), never by compiled code.
* The reading of the C++: that each definition means what the cited lines do, with the simplifications
  stated in its comment and in the rows above.
* NTL behaves as documented: `MinPolySeq` returns the minimal polynomial of a sequence when its degree is
  at most the bound (the hypothesis `MTT.MinPolySeqSpec`, stated in each theorem that needs it); `GCD`, `PowerXMod`, `IterIrredTest`, `XGCD`, `kernel`, `DivRem` return their mathematical results.
* GNU `getopt`, `getopt_long`, `strtol`, `strtoull` behave as modelled (C91, C104, C105); the C++ streams
  print numbers in the usual digits; `errno` is 0 at the start.
* `int` has 32 bits, two's complement; the widths of `long` that matter are named where they do.

### What is modelled

| file in /repo | model (under lean/Verif) | left out |
| --- | --- | --- |
| include/MTToolBox/AbstractGenerator.hpp, EquidistributionCalculatable.hpp, RecursionSearchable.hpp, TemperingCalculatable.hpp, ReducibleGenerator.hpp, ReducibleTemperingCalculatable.hpp, ParameterGenerator.hpp, AlgorithmTempering.hpp | pure interfaces: the records of operations in `PIS/Model`, `Search/Model`, `Temper/Model`, `Lin/Model`, `Parity/Model` | virtual dispatch |
| include/MTToolBox/AlgorithmEquidistribution.hpp | `PIS/Model` | messages under `DEBUG` |
| include/MTToolBox/AlgorithmBestBits.hpp, AlgorithmPartialBitPattern.hpp | `Temper/Model`, what `verbose` prints in `Search/Verbose` | messages under `DEBUG` |
| include/MTToolBox/AlgorithmRecursionSearch.hpp, AlgorithmReducibleRecursionSearch.hpp, AlgorithmRecursionAndTempering.hpp, AlgorithmReducibleRT.hpp, AlgorithmReducibleEquidistribution.hpp | `Search/Model`, `Search/RTModel`, `Search/ReducibleRT`, `Search/Reducible`, `Search/Verbose` | messages under `DEBUG` |
| include/MTToolBox/AlgorithmCalculateParity.hpp | `Parity/Model` | messages under `DEBUG` |
| include/MTToolBox/AlgorithmPrimitivity.hpp, period.hpp, lib/AlgorithmPrimitivity.cpp, lib/period.cpp | `Period/Model`, `Period/Tables`, `Period/Factor`, `Search/Model` | the code of NTL |
| include/MTToolBox/MersenneTwister.hpp, MersenneTwister64.hpp | `MT/Model` | |
| include/MTToolBox/Sequential.hpp | `Util/Sequential`, `Util/SequentialCalls` | |
| include/MTToolBox/TestLinearity.hpp | `Lin/Model` | |
| include/MTToolBox/util.hpp | `Util/Model`, `Util/Lcm`, `Samples/PolyText` | |
| lib/version.c, include/MTToolBox/version.h | `Tests/Suite` | |
| samples/MTDC | `Samples/MTDC`, `Samples/MT1`, `Samples/MT2`, `Samples/MT2Verbose` | |
| samples/MTGPDC | `Samples/MTGP`, `Samples/MTGPDC`, `Samples/MTGPVerbose`, `Samples/LinearityTools` | test.cpp (an empty UnitTest++ runner) |
| samples/RMT | `Samples/RMT`, `Samples/RMTDC`, `Samples/RMTTools`, `Samples/RMTVerbose`, `Samples/EquidistMain`, `Samples/PeriodTools` | |
| samples/TinyMTDC | `Samples/TinyMT`, `Samples/TinyMTDC`, `Samples/TinyMTVerbose`, `Samples/TinyMTVariants` | |
| samples/XORSHIFT, slide | `Samples/XorShift`, `XorShift3`, `XorShiftFixed`, `XorShiftTable`, `XorShiftSearch` | slide/xorshift-11.cpp and -12.cpp are excerpts of slide/xorshift-1.cpp |
| samples/sfmtdc | `Samples/SFMT`, `SFMTDC`, `SFMTTools`, `W128`, `Setters`, `ParityTest`, `EquidistMain`, `LineText`, `LinearityTools`, `PeriodTools`, `SIMD/Model`, `Anni/Model` | text under `DEBUG` |
| samples/dSFMTdc | `Samples/DSFMT`, `DSFMTDC`, `DSFMTTools`, `W128`, `Setters`, `ParityTest`, `FixTest`, `OldFormat`, `OldCommand`, `EquidistMain`, `LinearityTools`, `PeriodTools`, `SIMD/Model`, `Anni/Model`, `Parity/Fix` | the same |
| parse_opt.cpp and the option readers of all programs | `Samples/Options`, `Samples/Getopt`, `Samples/GetoptLong`, `Samples/Programs`, texts in `Samples/SearchText` | messages on the standard error output, exit codes except where a row says so |
| test/ | `Tests/Gen`, `Tests/Suite`, `Tests/PeriodTest`, `Tests/EquidistTest`, `Tests/RLittleTest`, `Tests/RTinyTest`, `Samples/TinyRef` | main.cpp (the UnitTest++ runner), UnitTest++ itself |

Not modelled at all: build files, documentation, the archives in the top directory, NTL, the C library beyond
the functions named above, memory exhaustion, and running time.

## Disagreements found between the code and the properties

Each entry was found while stating or proving a property; the theorem that shows it is named where there is one.

* C03 `calc_1pos`: for the most negative value the code negates a signed integer: undefined behaviour.
* C08/C09 `fromGF2Vec` and related conversions shift by −1 for some sizes (see `MTT.Util`).
* C28 the table of Mersenne exponents in `period.cpp` lacks 24036583 (`MTT.Mexp.isMexp_missing`), and `isMexp` is a
  look-up in it.  The modules `Verif/Mexp/*` run the Lucas–Lehmer test in the kernel (`decide +kernel` on natural number
  arithmetic): entries up to 216091 are proved to be Mersenne exponents, and up to 11213 there are no others (each prime
  exponent has a factor of `2^p - 1` or a failing test).  `Certs`, `Comp*`, `Small`, `P*` are generated.
* `isPrime` truncates the degree to 32 bits and accepts the polynomial X.
* `hasFactorOfDegree` answers false if the number of factors of that degree is not one.
* C39 `xorshift128_init_by_array` ignores its key; an xorshift with a zero shift count is singular.
* C59 `tinymt32`: the copy constructor clears the reverse flag, so the LSB tempering search measures MSB
  equidistribution (`reverse_measure_wrong`).
* `AlgorithmRecursionAndTempering::search` can only return true; the callers' failure branch is dead.
* `AlgorithmBestBits` measures candidates without calling `setUpTempering`.
* `floor2p(0)` does not end; `MersenneTwister(…, array, 0)` reads element 0 (`empty_key_reads_outside`).
* samples: RMT64 `setOneBit` uses an `int` shift (C41); `MT32Search::isZero` looks at the wrong word (C42);
  dSFMT `isZero` in weight mode 1 looks at 32 instead of 64 bits (C51); MTGP `isZero` reads an uninitialised mask
  and looks at the newest word instead of the oldest (C60, `MTT.MTGP.isZero_wrong`).
* `MTGP32dc` without `USE_SHA` prints the uninitialised array `sha1[1]` of `mtgp_param` as a string.
* `w128_t`: `calc_1pos` negates the signed 64-bit halves, undefined for a half equal to INT64_MIN; the word views
  `u[4]`/`u64[2]` are modelled as on a little-endian machine.
* `AlgorithmCalculateParity::search_parity_check_vector` calls `setBitOfPos(&mask, -1, 1)` after its last bit: a shift
  by a negative amount, undefined in C++ (`MTT.Parity.setPos_undefined`).  The result is not used; the model takes an
  arbitrary word for it.
* C49 the property's condition (as many words as the small part has dimensions) is not needed: the returned vector is
  orthogonal to the small part in every run that returns (`MTT.Parity.searchParity_orthogonal`).
* C63 `calc_SIMD_equidistribution` delivers `min_a max_b (E K(a+b) - (E-b))`, `K(j)` whole blocks from word `j` on
  (`MTT.SIMD.calcSIMD_formula`).  This is a lower bound of `k(v)` and less than `E` (4 or 2 words) below it
  (`calcSIMD_bounds_partial`), but not `k(v)`: `MTT.SFMT.simd_underestimates` is an `sfmt` object for which it delivers
  4 instead of 5.
* C64 the same for `calc_dSFMT_equidistribution`: `MTT.DSFMT.simd52_underestimates` is a `dSFMT` object for which it
  delivers 2 instead of 3.
* `sfmt::setParityValue` also overwrites the current word of the state (as does dSFMT's with the lung).
* The seed word of `calc_equidist`, `calc_parity`, `calc_fixpoint`, `make_old_format` and `test_period` is a `w128_t` of
  which only the lower half is set; the upper half is uninitialised.  C70, C71 hold for every value of it, but whether
  the programs find the large component may depend on it.
* The argument parsers step over a separator without looking for the end of the text, so that a short argument is read
  behind its end (`MTT.SFMT.parse_short`).  The usage text of the RMT tools lists `mskb,mskc,parity`, the parser reads
  `parity,mskb,mskc`.
* C65 needs `SL1 >= 1` for dSFMT: with `SL1 = 0` (possible through `--fixed 0`) the certified words no longer determine
  the state.
* C77 `RMT64Search::setParityValue` overwrites the current word of the state, and `AlgorithmReducibleRT` does not seed
  again before it isolates the large component.  The state may then have no part in it: `MTT.Parity.Toy2.wrong_delta` is a
  register for which `search` returns true with the zero state and a wrong sum of defects.  The sum is relative to
  `bitSize()`, not to `mexp`.  The second overload of `search` passes a `TemperingCalculatable` where a `G&` is needed and
  cannot be instantiated.
* C82 `tinymt32_generate_32double` is documented to be in (0,1] but returns 0 for output 0
  (`MTT.TinyRef.gen32double_zero`); `tinymt32_generate_floatOC` advances the state twice.
* C85 `MT19937::isZero` of mt1.cpp has the mistake of mt2.cpp (C42): `MTT.MT1.isZero_wrong`.
* C87 mt2.cpp never initialises `opt.seed` when `-s` is absent (mt2.cpp:272-276, 393 read it): the program then has
  an indeterminate seed; the model takes any source sequence, so the claims hold whatever is read.  `maskb` may be printed
  with bit 6 set although `(y << 7) & maskb` can never see it.
* C88 rmt64dc: with the shifts of the standard no line can be printed for eleven of the fifteen exponents (`rmtMain_undefined`):
  `setOneBit` computes `1 << r` in `int` with r up to 63.  The printed delta is relative to `bitSize()` (a multiple of 64),
  not to mexp, so that it is larger than the sum of the defects by a constant (`excess`).  `setUpParam` may choose `pos = 0`.
  The parity search leaves its last vector in the state from which delta is then measured; if that removed the large component,
  delta would be that of another component (the condition `Keeps` in `GoodLine.table`).
* C90 dSFMTdc: `pos1 = getUint64() % (size - 2) + 1` never is `size - 1`, although the constructor and the recursion allow it
  and the published dSFMT521 uses it (`never_dsfmt521`).
* C91 the search programs: `-f file` empties the file (even if the program then stops with its usage message) but all lines go
  to standard output (`file_emptied`); `-c 4294967296` is accepted and prints nothing (`count_wraps`); dSFMTdc accepts
  `--fixed` with 64 and more or negative numbers, which is an undefined shift (`dsfmtdc_undefined`); mt2 without `-s` seeds with
  an uninitialised variable (`mt2_seed`); MTGP32dc takes exponent and id modulo 2^32 (`mtgp32dc_program`); a text without a
  number is an id of 0, and text behind a number is ignored.
* C92/C93 the tests: the last entry of the table of prime factors of 2^128-1 in test_period.cpp and test_rtiny.cpp is
  `672804213107211` instead of `67280421310721`, so that `isPrime` accepts polynomials that are not primitive (`testTable_wrong`).
  `is_irreducible`, `is_prime2` and `has_factor` of test_period.cpp print no "ok", `is_prime` calls itself "prime 2"
  (`testPeriod_passes`).  test_rtiny.cpp never sets `prime`, so that it always makes its 10000000 turns (`rtinyMain_spec`).
* C95 the class `Tiny32` of test_temper_searcher.hpp keeps a flag `reverse` that `generate` ignores, so that the search
  with `optimize_lsb = true` optimises the order from the most significant bit as well; the copy constructor leaves it uninitialised.
  test_search prints "tesing search ..." and no "ok" (`search_passes`).  test_primefactors tests only that the entries divide, not that
  they are prime nor that none is missing (C30 does).
* C96 the loop of test_rlittle has no bound: whether it ends depends on the source (`rlittle_endless`); the variable
  `reducible` never decides (`rlittleMain_spec`), and a turn with `continue` skips the test for the end, which changes nothing.
* C98 calc_period.cpp of dSFMTdc examines the bits 64 to 103 of the upper half of the word, where 64 to 115 carry numbers
  (`Examined`): in start mode 0 a constant bit among 104 to 115 does not show in `min`.  (In start mode 1, which swaps the
  halves, it is the bits 40 to 51 of the lower half that are left out.)
* C37 `make_pattern` writes a bit only if it is not the least significant one (`obSize > v + sum + 1`), while `inRange` lets
  `v + shift + sum` be up to the width: patterns that differ only in the least significant bit of a parameter are candidates
  with the same parameters.  With three or more parameters the second round of places begins with the first parameter again
  and has as many places as the first one (`places`), where with two parameters only the first parameter has a second place.
* C99 make_old_format.cpp sets only the lower half of the seed word; the upper half is uninitialised.  The second polynomial
  printed may depend on it, the first does not (`oldFormat_seed`).  Without a factor of degree mexp the program throws a
  pointer to an exception that nobody catches.
* C100 samples/MTGPDC/test_linearity.cpp, which `make check` builds (but does not run), does not test the generator of the parameters it sets:
  `set_param` copies a parameter object whose lookup tables are zero, so `tbl` is not used, and the mask 0xffff8000 is not
  that of exponent 11213 (0xfff80000): `tested_object`.  The test passes for every `tbl`.
* C100 test_linearity.cpp of sfmtdc and dSFMTdc end with status 0 also if a test fails (`testLinearityMain_status`).  The
  nineteen seeds make no difference: `TestLinearity` seeds its copies with 1234 and 4321.
* C101 calc_parity of sfmtdc returns `false`, that is exit status 0, if it finds no factor; the program of dSFMTdc returns -1.
  In both, two `break`s of the self-test forget `point = i`, so the message would name count 0; the branches are unreachable
  after a successful parity search (`testParity0_ok`).
* C102 `chk_fix2` of calc_fixpoint is not a check of the fixed point alone: it can also fail because the common multiple of
  `getLCMPoly` does not annihilate the affine constant (see C68), although the word is then still a fixed point up to the image
  of `f` and the program without `-c` prints it.  Whether such admissible parameters exist is not decided here.
* C103 the help text of calc_equidist of dSFMTdc offers `-r`, but the program does not know the option and ends with -1
  (calc_equidist.cpp:127-143, 182).  The upper half of the seed word is uninitialised in both programs, so that whether a text is
  printed, though not which one, can depend on memory.
* C104 `option` of calc_parity and calc_fixpoint sets `error` for `-h` and unknown letters, calls `getopt` once more, leaves the loop and
  then never looks at `error`: it always returns true (calc_parity.cpp:153-202).  There is no help text.  The next option letter is lost,
  `calc_parity TEXT -h -c` reads the null pointer behind the arguments, `calc_parity -hcv TEXT` reads behind the end of `-hcv`, and so does
  a call without arguments.
* C105 the loop of calc_equidist leaves after an error only when `getopt_long` has been called once more, and `parse_opt` then reads the
  parameters from `argv[optind]` before it looks at the error (calc_equidist.cpp:141-146, 169-206 of sfmtdc; the same in dSFMTdc).
  `calc_equidist -x -v -s 5 LINE` therefore parses the text `-s`, which has no parameters (`equidistS_takes_option`).
* C106 `option` of make_old_format reads `argv[1]` instead of `argv[optind]` (make_old_format.cpp:39).  GNU `getopt` has moved the options
  to the front by then, so the program's own option `-d` is parsed as a parameter line, wherever it stands, and `-h` shows no help.
* C107 The header of MTGP32dc has 16 names and its lines have 18 cells: the weight and delta have no name (mtgp_param.h:84-88,
  MTGP32dc.cpp:84-86).  A blank is missing before `tmp_0`.
* C107 `USE_SHA` is not defined anywhere, so `sha1` of `mtgp_param` is one character that nothing sets (mtgp_param.h:31-66, 157);
  `getParamString` prints it as a string (mtgp_param.h:94).  If the character is not 0, the program reads behind the array.
* C107 rmt64dc does not print its seed, so a run without `-s` cannot be repeated from its output; mt2 without `-s` uses an uninitialised
  seed (C91).  sfmtdc prints a seed of 64 bits and uses the low 32 bits.
* C107 The help text of mt2 says of `--max` that "parameters less than delta are not showed" (mt2.cpp:254); the program omits those whose
  delta is larger.  This help text goes to `cout`, those of the other programs to `cerr`; the header of mt2 has no `#`.
* C107 The delta of rmt64dc and the sum that `calc_equidist` prints for the same line differ by `excess mexp`, which is positive
  (if the state that the parity search leaves contains the large component).
* C108 With `USE_SHA` the string in the first cell of MTGP32dc has no end: `set_param` takes its argument by value, and the copy
  constructor of `mtgp_param` copies the 40 characters but not the terminating 0 (it copies `sha1[0]` twice, mtgp_param.h:60-65;
  MTGP32search.hpp:245-247).  `getParamString` then reads an uninitialised character and possibly behind the array
  (`shaCell_unended`).
* C109 The line "not found in N" of the combined searches counts 10000 sets for every turn, while a turn examines `1000 * bitSize()`
  sets; the number is right only for a `bitSize()` of 10 (`notFound_lines`, `notFound_wrong`).  `(i + 1) * 10000` is an `int`: with
  `verbose` turn 214749 without success executes an overflow, without `verbose` the search goes on (`findLoop_overflow`).
* C109 The tempering searches write their messages to `cout`, also when the combined search has been given another stream `os`.
* C109 What tinymt32dc writes under "lsb delta" is the table for the outputs in normal order, because `clone` clears
  `reverse_bit_flag` (`TinyMT.lsb_says_msb`; C59).
* C109 `AlgorithmBestBits` writes its last line "delta = ..." twice.
* C111 Array seeding does not mix the length of the key into the state, so `seed("b")` and `seed("ba")`, or the keys `{5}` and `{5, 4}`, give the same stream (`key_lengths_collide32`, `key_lengths_collide64`, `strings_collide`).
* C113 `setup_prefix` masks the array of the dSFMT class to 52 bits after seeding, so the upper twelve bits of the first half of the seed are lost and the second half can make up for them in the words that follow: every state belongs to exactly 4096 seeds (`DSFMT.seed_collisions`). `seed(0)` of the TinyMT class leaves the zero state, from which only zeros come (`TinyMT.seed_restarts`, C43).
* C114 `set_reverse_bit` of the dSFMT class does nothing, the assignment is commented out (`DSFMT.reverse_ignored`); what its comment promises holds for the sfmt class.
* C116 `AlgorithmPrimitivity(const char*[])` leaves what a string has beyond one number in the stream from which the next number is read, so `{"3 5", "17", NULL}` is stored as 3, 5 and `{"3;", "5", NULL}` aborts; `isPrime(poly, degree, const char*[])` reads the same tables as 3, 17 and 3, 5 (`ctor_two`, `ctor_garbage`).  The built-in tables have one number per string (C30).
* C80/C127: C80 first said that different seeds give different effective states for both reference generators. For
  tinymt64 that is false: `tinymt64_init` mixes the words one-to-one, but `next_state` ignores the top bit of the first
  word, and with the parameters of `Tiny64` the seeds 0x8ad7b96990e5bcdb and 0x893c846275446ea4 (also
  0xfe02e87dcfcb13b4 and 0xe1919d44dad8ecfc) give objects that differ in this bit only (`tiny64_merges`).
