{
 "claims": [
  {
   "property": "C01",
   "status": "proved",
   "theorems": [
    "MTT.Util.count_bit_correct"
   ],
   "note": ""
  },
  {
   "property": "C02",
   "status": "proved",
   "theorems": [
    "MTT.Util.calc1pos16_correct",
    "MTT.Util.calc1pos32_correct",
    "MTT.Util.calc1pos64_correct",
    "MTT.Util.calc1posWrap32_correct",
    "MTT.Util.calc1posWrap64_correct"
   ],
   "note": "On the single word with undefined behaviour (C03) the claim holds for wrapping negation."
  },
  {
   "property": "C03",
   "status": "proved",
   "theorems": [
    "MTT.Util.calc1pos_undefined"
   ],
   "note": "The property as stated is false; the theorem determines the offending words exactly."
  },
  {
   "property": "C04",
   "status": "proved",
   "theorems": [
    "MTT.Util.reverse_bit_correct"
   ],
   "note": ""
  },
  {
   "property": "C05",
   "status": "proved",
   "theorems": [
    "MTT.Util.floor2p_correct"
   ],
   "note": ""
  },
  {
   "property": "C06",
   "status": "proved",
   "theorems": [
    "MTT.Util.get_range_correct",
    "MTT.Util.get_range_block",
    "MTT.Util.get_range_no_value"
   ],
   "note": ""
  },
  {
   "property": "C07",
   "status": "proved",
   "theorems": [
    "MTT.Util.fill_table_correct",
    "MTT.Util.fill_table_linear",
    "MTT.Util.fill_table_reads"
   ],
   "note": ""
  },
  {
   "property": "C08",
   "status": "partial",
   "theorems": [
    "MTT.Util.toGF2Vec_correct",
    "MTT.Util.gf2vec_round_trip_partial",
    "MTT.Util.gf2vec_round_trip'_partial"
   ],
   "note": "fromGF2Vec executes an undefined shift on every call (C09); proved under the assumption that this only yields an unspecified, unused mask."
  },
  {
   "property": "C09",
   "status": "proved",
   "theorems": [
    "MTT.Util.fromGF2Vec_undefined"
   ],
   "note": "The property as stated is false; the theorem proves its negation for every vector."
  },
  {
   "property": "C10",
   "status": "proved",
   "theorems": [
    "MTT.Util.bitOfPos_correct"
   ],
   "note": ""
  },
  {
   "property": "C22",
   "status": "proved",
   "theorems": [
    "MTT.PIS.getAllEquidist_correct",
    "MTT.PIS.getEquidist_correct"
   ],
   "note": ""
  },
  {
   "property": "C23",
   "status": "proved",
   "theorems": [
    "MTT.PIS.getAllEquidist_correct",
    "MTT.PIS.getEquidist_correct"
   ],
   "note": ""
  },
  {
   "property": "C24",
   "status": "proved",
   "theorems": [
    "MTT.PIS.getAllEquidist_correct",
    "MTT.PIS.getEquidist_correct",
    "MTT.PIS.defect_nonneg"
   ],
   "note": ""
  },
  {
   "property": "C25",
   "status": "proved",
   "theorems": [
    "MTT.PIS.window_count",
    "MTT.Concrete.s1_windows"
   ],
   "note": ""
  },
  {
   "property": "C11",
   "status": "proved",
   "theorems": [
    "MTT.Util.LCM_correct",
    "MTT.Util.LCM_zero"
   ],
   "note": ""
  },
  {
   "property": "C12",
   "status": "proved",
   "theorems": [
    "MTT.Seq.sequential_countdown",
    "MTT.Seq.sequential_fresh",
    "MTT.Seq.sequential_calls",
    "MTT.Seq.countdown_values"
   ],
   "note": ""
  },
  {
   "property": "C26",
   "status": "proved",
   "theorems": [
    "MTT.Period.isPrimeVec_correct",
    "MTT.Period.isPrimeVec_degree_one",
    "MTT.Period.primitivityOp_correct"
   ],
   "note": ""
  },
  {
   "property": "C27",
   "status": "proved",
   "theorems": [
    "MTT.Period.primitive_of_mersenne",
    "MTT.Period.primitivityOp_mersenne",
    "MTT.Period.isMexp_iff",
    "MTT.Period.isMexp_iff_nat",
    "MTT.Period.isPrime1_iff",
    "MTT.Period.isPrime1_primitive",
    "MTT.Period.isPrime1_truncates",
    "MTT.Mexp.isPrime1_primitive_bounded"
   ],
   "note": ""
  },
  {
   "property": "C29",
   "status": "proved",
   "theorems": [
    "MTT.Period.parse_correct",
    "MTT.Period.isPrimeStr_correct"
   ],
   "note": ""
  },
  {
   "property": "C31",
   "status": "proved",
   "theorems": [
    "MTT.Period.hasFactorOfDegree_correct",
    "MTT.Period.hasFactorOfDegree_half",
    "MTT.Period.hasFactorOfDegree_square"
   ],
   "note": ""
  },
  {
   "property": "C38",
   "status": "proved",
   "theorems": [
    "MTT.XorShift.linGen",
    "MTT.XorShift.isZero_iff",
    "MTT.XorShift.T_bijective",
    "MTT.XorShift.never_zero",
    "MTT.XorShift.becomes_zero_of_bad",
    "MTT.XorShift.setUpParam_range",
    "MTT.XorShift.setUpParam_inj",
    "MTT.XorShift.seed_not_zero",
    "MTT.XorShift.generate5_eq",
    "MTT.XorShift.generate1_eq",
    "MTT.XorShift.finrank_S",
    "MTT.XorShift.equidist"
   ],
   "note": ""
  },
  {
   "property": "C39",
   "status": "partial",
   "theorems": [
    "MTT.XorShift.init_ne_zero",
    "MTT.XorShift.init_junk",
    "MTT.XorShift.initByArray_ignores_key",
    "MTT.XorShift.initByArray_ne_zero_partial"
   ],
   "note": "xorshift128_init_by_array ignores its key: the part of the claim about the key is false and its negation is proved."
  },
  {
   "property": "C13",
   "status": "proved",
   "theorems": [
    "MTT.XorShift.main_correct_from",
    "MTT.XorShift.main_correct",
    "MTT.XorShift.main_correct_table",
    "MTT.XorShift.expected_complete"
   ],
   "note": ""
  },
  {
   "property": "C30",
   "status": "proved",
   "theorems": [
    "MTT.Period.tables_correct",
    "MTT.Period.tables_primitive"
   ],
   "note": ""
  },
  {
   "property": "C32",
   "status": "proved",
   "theorems": [
    "MTT.Search.minpoly_correct",
    "MTT.Search.minpoly_dim"
   ],
   "note": "NTL's MinPolySeq is assumed to satisfy MinPolySeqSpec, which is satisfiable (MTT.minPolySeqSpec_sat)."
  },
  {
   "property": "C33",
   "status": "proved",
   "theorems": [
    "MTT.Search.tryOnce_correct",
    "MTT.Search.start_max_period",
    "MTT.Search.primOK_table",
    "MTT.Search.primOK_mersenne",
    "MTT.XorShift.family"
   ],
   "note": ""
  },
  {
   "property": "C34",
   "status": "proved",
   "theorems": [
    "MTT.Search.start_bookkeeping",
    "MTT.Search.rStart_bookkeeping"
   ],
   "note": ""
  },
  {
   "property": "C55",
   "status": "proved",
   "theorems": [
    "MTT.Search.calcCharPoly_correct",
    "MTT.Search.calcCharPoly_bit0"
   ],
   "note": ""
  },
  {
   "property": "C56",
   "status": "proved",
   "theorems": [
    "MTT.Search.rTryOnce_correct",
    "MTT.Search.rStart_long_period"
   ],
   "note": ""
  },
  {
   "property": "C14",
   "status": "proved",
   "theorems": [
    "MTT.MT.mt19937_published",
    "MTT.MT.mt19937_array_published",
    "MTT.MT.history32",
    "MTT.MT.exists_seq"
   ],
   "note": ""
  },
  {
   "property": "C15",
   "status": "proved",
   "theorems": [
    "MTT.MT.history32",
    "MTT.MT.history64",
    "MTT.MT.empty_key_reads_outside"
   ],
   "note": "For key arrays with at least one readable element; with an empty key the code reads value[0], which is proved."
  },
  {
   "property": "C16",
   "status": "proved",
   "theorems": [
    "MTT.MT.mt19937_64_published",
    "MTT.MT.mt19937_64_array_published",
    "MTT.MT.history64",
    "MTT.MT.getU32_64_upper"
   ],
   "note": ""
  },
  {
   "property": "C17",
   "status": "proved",
   "theorems": [
    "MTT.MT.seed32_not_zero",
    "MTT.MT.seedArr32_not_zero",
    "MTT.MT.seed64_not_zero",
    "MTT.MT.seedArr64_not_zero",
    "MTT.MT.dimension"
   ],
   "note": ""
  },
  {
   "property": "C18",
   "status": "proved",
   "theorems": [
    "MTT.MT.getU64_concat",
    "MTT.MT.getU64_history",
    "MTT.MT.history32"
   ],
   "note": ""
  },
  {
   "property": "C19",
   "status": "proved",
   "theorems": [
    "MTT.MT.temper32_linear",
    "MTT.MT.temper32_bijective",
    "MTT.MT.temper64_linear",
    "MTT.MT.temper64_bijective"
   ],
   "note": ""
  },
  {
   "property": "C20",
   "status": "proved",
   "theorems": [
    "MTT.Lin.testLinearity_iff",
    "MTT.Lin.testLinearity_complete",
    "MTT.Lin.reject_nonlinear"
   ],
   "note": ""
  },
  {
   "property": "C21",
   "status": "proved",
   "theorems": [
    "MTT.Lin.annihilate_correct",
    "MTT.Lin.annihilate_zero",
    "MTT.Lin.annihilate_minpoly",
    "MTT.Lin.annihilate_exact"
   ],
   "note": ""
  },
  {
   "property": "C43",
   "status": "proved",
   "theorems": [
    "MTT.TinyMT.linGen",
    "MTT.TinyMT.linGen_view",
    "MTT.TinyMT.addE_iff",
    "MTT.TinyMT.isZero_iff",
    "MTT.TinyMT.finrank_S",
    "MTT.TinyMT.top_bit_irrelevant",
    "MTT.TinyMT.T_bijective",
    "MTT.TinyMT.never_zero",
    "MTT.TinyMT.equidist",
    "MTT.TinyMT.seed_isZero",
    "MTT.TinyMT.seed_first"
   ],
   "note": ""
  },
  {
   "property": "C44",
   "status": "proved",
   "theorems": [
    "MTT.TinyMT.setUpParam_inj",
    "MTT.TinyMT.setUpParam_rest"
   ],
   "note": ""
  },
  {
   "property": "C35",
   "status": "proved",
   "theorems": [
    "MTT.Temper.searchBest_correct",
    "MTT.Temper.partialBitPattern_correct",
    "MTT.Temper.patterns_complete",
    "MTT.Temper.patternOf_spec",
    "MTT.Temper.partialBitPattern_undefined",
    "MTT.TinyMT.temperContract"
   ],
   "note": ""
  },
  {
   "property": "C36",
   "status": "proved",
   "theorems": [
    "MTT.Temper.makeMask_correct",
    "MTT.Temper.makeMask_undefined"
   ],
   "note": ""
  },
  {
   "property": "C37",
   "status": "proved",
   "theorems": [
    "MTT.Temper.bestBits_correct",
    "MTT.Temper.inRange_defined",
    "MTT.Temper.makePattern_defined",
    "MTT.Temper.makePattern_two",
    "MTT.Temper.inRange_two"
   ],
   "note": "For one to seven parameters (1 << num_pat is an int) and non-negative shifts."
  },
  {
   "property": "C57",
   "status": "proved",
   "theorems": [
    "MTT.Search.rtSearch_correct"
   ],
   "note": ""
  },
  {
   "property": "C58",
   "status": "proved",
   "theorems": [
    "MTT.TinyMT.dcMain_correct"
   ],
   "note": ""
  },
  {
   "property": "C59",
   "status": "partial",
   "theorems": [
    "MTT.TinyMT.measure_ignores_reverse",
    "MTT.TinyMT.reverse_measure_wrong",
    "MTT.MTGP.measure_spec"
   ],
   "note": "True for mtgp32. False for TinyMT32 as coded: the copy constructor used by the measurement clears the flag; both the exact behaviour and a concrete witness are proved."
  },
  {
   "property": "C42",
   "status": "partial",
   "theorems": [
    "MTT.MTDC.linGen",
    "MTT.MTDC.linGen_view",
    "MTT.MTDC.finrank_S",
    "MTT.MTDC.effective",
    "MTT.MTDC.T_bijective",
    "MTT.MTDC.isZero_iff",
    "MTT.MTDC.isZero_partial",
    "MTT.MTDC.isZero_wrong",
    "MTT.MTDC.ctor_setUp",
    "MTT.MTDC.equidist"
   ],
   "note": "Everything but the isZero clause, which is false as coded; its exact behaviour and a counterexample are proved."
  },
  {
   "property": "C40",
   "status": "proved",
   "theorems": [
    "MTT.RMT.linGen",
    "MTT.RMT.linGen_view",
    "MTT.RMT.finrank_S",
    "MTT.RMT.isZero_iff",
    "MTT.RMT.generate_spec",
    "MTT.RMT.add_den",
    "MTT.RMT.ctor_setUp",
    "MTT.RMT.ctorPar_inv",
    "MTT.RMT.T_bijective",
    "MTT.RMT.temper_injective",
    "MTT.RMT.getParamString_keeps",
    "MTT.RMT.seed_ne_zero",
    "MTT.RMT.equidist"
   ],
   "note": ""
  },
  {
   "property": "C41",
   "status": "partial",
   "theorems": [
    "MTT.RMT.setOneBit_partial",
    "MTT.RMT.setOneBit_wrong"
   ],
   "note": "True for the positions 0..30 of each word; false for 31..63 as coded (int shift): undefined or 33 bits set, which is proved."
  },
  {
   "property": "C52",
   "status": "proved",
   "theorems": [
    "MTT.MTGP.linGen",
    "MTT.MTGP.linGen_view",
    "MTT.MTGP.finrank_S",
    "MTT.MTGP.fillTable_spec",
    "MTT.MTGP.generate_spec",
    "MTT.MTGP.add_den",
    "MTT.MTGP.ctor_spec",
    "MTT.MTGP.setUpParam_spec",
    "MTT.MTGP.setUpParam_none",
    "MTT.MTGP.sizeOK_accepted",
    "MTT.MTGP.tbl_ne",
    "MTT.MTGP.setUpTempering_spec",
    "MTT.MTGP.T_bijective",
    "MTT.MTGP.equidist"
   ],
   "note": ""
  },
  {
   "property": "C53",
   "status": "proved",
   "theorems": [
    "MTT.TinyMT.setPat_bit",
    "MTT.TinyMT.setPat_set",
    "MTT.MTDC.setPat_spec",
    "MTT.RMT.setPat_spec",
    "MTT.MTGP.setPat_spec"
   ],
   "note": ""
  },
  {
   "property": "C54",
   "status": "proved",
   "theorems": [
    "MTT.TinyMT.generateV_leading",
    "MTT.MTDC.generateV_leading",
    "MTT.RMT.generateV_leading",
    "MTT.MTGP.generateV_leading",
    "MTT.SFMT.generateV_leading",
    "MTT.DSFMT.generateV_leading",
    "MTT.XorShift.generateV_leading",
    "MTT.XorShift3.generateV_leading",
    "MTT.MT1.generateV_leading",
    "MTT.leading_toNat",
    "MTT.TinyMT.linGen_view",
    "MTT.MTDC.linGen_view",
    "MTT.RMT.linGen_view",
    "MTT.MTGP.linGen_view"
   ],
   "note": "Every sample generator class with a generate(int): TinyMT32, MT32Search, RMT64Search, mtgp32, SFMT, dSFMT, the xorshift classes and mt1.cpp, in both output orders where the class has them."
  },
  {
   "property": "C60",
   "status": "partial",
   "theorems": [
    "MTT.MTGP.isZero_iff",
    "MTT.MTGP.isZero_partial",
    "MTT.MTGP.isZero_wrong"
   ],
   "note": "False as coded; the exact behaviour and counterexamples are proved."
  },
  {
   "property": "C62",
   "status": "proved",
   "theorems": [
    "MTT.MTGP.id_recoverable"
   ],
   "note": ""
  },
  {
   "property": "C61",
   "status": "proved",
   "theorems": [
    "MTT.MTGP.searches_improve",
    "MTT.MTGP.dcMain_correct",
    "MTT.MTGP.dcMain_exponents",
    "MTT.MTGP.indexedSearch_correct",
    "MTT.MTGP.family",
    "MTT.MTGP.temperContract",
    "MTT.MTGP.st_spec",
    "MTT.MTGP.lines_differ"
   ],
   "note": "dcMain_exponents needs no hypothesis on primality: for the seven accepted exponents it is proved (C28)."
  },
  {
   "property": "C46",
   "status": "proved",
   "theorems": [
    "MTT.W128.bitwise_correct",
    "MTT.W128.getOne_correct",
    "MTT.W128.convert_correct",
    "MTT.W128.shr_correct",
    "MTT.W128.shl_correct",
    "MTT.W128.makeMsbMask_correct",
    "MTT.W128.getBitOfPos_correct",
    "MTT.W128.setBitOfPos_correct",
    "MTT.W128.calc1posWrap_correct",
    "MTT.W128.calc1pos_correct",
    "MTT.W128.reverseBit_correct"
   ],
   "note": "calc_1pos negates a signed 64-bit half; for a half equal to INT64_MIN that is undefined, which calc1pos_correct states exactly."
  },
  {
   "property": "C45",
   "status": "proved",
   "theorems": [
    "MTT.SFMT.linGen",
    "MTT.SFMT.linGen_view",
    "MTT.SFMT.doRecursion_eq",
    "MTT.SFMT.generate_spec",
    "MTT.SFMT.add_den",
    "MTT.SFMT.isZero_iff",
    "MTT.SFMT.finrank_ring",
    "MTT.SFMT.T1_bijective",
    "MTT.SFMT.setOneBit_spec",
    "MTT.SFMT.ctor_setUp",
    "MTT.SFMT.ctorPar_inv",
    "MTT.SFMT.seed_ne_zero",
    "MTT.SFMT.equidist"
   ],
   "note": "On the domain 0 < pos1 < size of the accepted parameters; 128-bit words as little-endian unions."
  },
  {
   "property": "C47",
   "status": "proved",
   "theorems": [
    "MTT.SFMT.periodCertification_correct",
    "MTT.DSFMT.periodCertification_correct"
   ],
   "note": ""
  },
  {
   "property": "C51",
   "status": "partial",
   "theorems": [
    "MTT.DSFMT.linGen",
    "MTT.DSFMT.doRecursion_eq",
    "MTT.DSFMT.generate_spec",
    "MTT.DSFMT.add_den",
    "MTT.DSFMT.isZero_iff",
    "MTT.DSFMT.isZero_partial",
    "MTT.DSFMT.isZero_wrong",
    "MTT.DSFMT.upper_kept",
    "MTT.DSFMT.T1_low",
    "MTT.DSFMT.finrank_low",
    "MTT.DSFMT.T1_bijective",
    "MTT.DSFMT.setOneBit_spec",
    "MTT.DSFMT.equals_iff",
    "MTT.DSFMT.ctor_setUp",
    "MTT.DSFMT.ctorPar_inv",
    "MTT.DSFMT.seed_low",
    "MTT.DSFMT.seed_ne_zero"
   ],
   "note": "Everything but the isZero clause in weight mode 1, which is false as coded; the exact behaviour and counterexamples both ways are proved."
  },
  {
   "property": "C48",
   "status": "proved",
   "theorems": [
    "MTT.Parity.odd_parity_period",
    "MTT.Parity.searchParity_period",
    "MTT.SFMT.certified_period",
    "MTT.DSFMT.certified_period",
    "MTT.DSFMT.certified_period_fix"
   ],
   "note": "For every reducible linear generator, and in particular for the SFMT class (weight mode 4) and the affine dSFMT generator (weight mode 2)."
  },
  {
   "property": "C49",
   "status": "proved",
   "theorems": [
    "MTT.Parity.searchParity_orthogonal",
    "MTT.Parity.searchParity_cofactor",
    "MTT.Parity.searchParity_total",
    "MTT.Parity.searchParity_bounded",
    "MTT.Parity.searchParity_returns",
    "MTT.Parity.searchParity_none",
    "MTT.Parity.setPos_undefined",
    "MTT.Parity.Toy.example_parity",
    "MTT.SFMT.redGen",
    "MTT.DSFMT.redGen"
   ],
   "note": "NTL's kernel is a parameter with its specification."
  },
  {
   "property": "C50",
   "status": "proved",
   "theorems": [
    "MTT.DSFMT.setters",
    "MTT.DSFMT.setConst_spec",
    "MTT.DSFMT.setConst_affine",
    "MTT.DSFMT.calcFixpoint_correct",
    "MTT.DSFMT.calcFixpoint_total",
    "MTT.DSFMT.fixpoint_unique",
    "MTT.DSFMT.calcFixpoint_shift",
    "MTT.DSFMT.calcFixpoint_fixPoint"
   ],
   "note": "NTL's XGCD is a parameter with its specification."
  },
  {
   "property": "C28",
   "status": "partial",
   "theorems": [
    "MTT.Mexp.table_prime",
    "MTT.Mexp.isMexp_sound_partial",
    "MTT.Mexp.isMexp_correct_partial",
    "MTT.Mexp.isMexp_missing",
    "MTT.Mexp.isMexp_incomplete",
    "MTT.Period.table_exponents_prime"
   ],
   "note": "Found false: 24036583 is missing. Sound up to 216091 and exact up to 11213, by Lucas-Lehmer tests in the kernel; of the ten entries from 756839 on only the primality of the exponent is proved."
  },
  {
   "property": "C63",
   "status": "partial",
   "theorems": [
    "MTT.SIMD.calcSIMD_formula",
    "MTT.SIMD.calcSIMD_bounds_partial",
    "MTT.SFMT.u_select",
    "MTT.SFMT.u_merge",
    "MTT.SFMT.mode32",
    "MTT.SFMT.mode64",
    "MTT.SFMT.stream32_out",
    "MTT.SFMT.simd32_partial",
    "MTT.SFMT.simd64_partial",
    "MTT.SFMT.simd_underestimates"
   ],
   "note": "Found false: the value can be smaller than k(v) (concrete sfmt object). Proved: the exact formula, no exception, value <= k(v) < value + words per block, the sum."
  },
  {
   "property": "C64",
   "status": "partial",
   "theorems": [
    "MTT.SIMD.calcSIMD_formula",
    "MTT.SIMD.calcSIMD_bounds_partial",
    "MTT.DSFMT.u64_select",
    "MTT.DSFMT.u64_merge",
    "MTT.DSFMT.mode52",
    "MTT.DSFMT.stream52_out",
    "MTT.DSFMT.simd52_partial",
    "MTT.DSFMT.simd52_underestimates"
   ],
   "note": "Found false: the value can be smaller than k(v) by one (concrete dSFMT object). Proved: the exact formula, no exception, value <= k(v) <= value + 1, the sum."
  },
  {
   "property": "C65",
   "status": "proved",
   "theorems": [
    "MTT.Anni.anniS_correct",
    "MTT.Anni.anniD_correct",
    "MTT.Anni.isolated_period",
    "MTT.SFMT.select_zero",
    "MTT.SFMT.obs",
    "MTT.SFMT.anni_correct",
    "MTT.DSFMT.lungs_determine",
    "MTT.DSFMT.obs",
    "MTT.DSFMT.anni_correct"
   ],
   "note": "Abstractly and for both classes; NTL's MinPolySeq is a parameter with its documented specification."
  },
  {
   "property": "C66",
   "status": "proved",
   "theorems": [
    "MTT.Anni.getLCMPolyS_correct",
    "MTT.Anni.getLCMPolyD_correct"
   ],
   "note": "For every reducible generator (RedGen), of which sfmt and dSFMT are instances (C49)."
  },
  {
   "property": "C67",
   "status": "proved",
   "theorems": [
    "MTT.SFMT.dcSearch_correct",
    "MTT.SFMT.measure_good",
    "MTT.SFMT.family",
    "MTT.SFMT.obsP",
    "MTT.Anni.rStart_red",
    "MTT.Anni.cyc_eq_root",
    "MTT.Anni.anniS_of_factor"
   ],
   "note": "NTL's MinPolySeq and kernel are parameters with their specifications. delta32 and delta64 are characterised by the bounds of C63."
  },
  {
   "property": "C68",
   "status": "proved",
   "theorems": [
    "MTT.DSFMT.dcSearch_correct",
    "MTT.DSFMT.measure_good",
    "MTT.DSFMT.family",
    "MTT.DSFMT.setUp_spec",
    "MTT.DSFMT.certified_period_fix",
    "MTT.DSFMT.calcFixpoint_fixPoint"
   ],
   "note": "NTL's MinPolySeq, kernel and XGCD are parameters with their specifications. delta52 is characterised by the bounds of C64."
  },
  {
   "property": "C69",
   "status": "proved",
   "theorems": [
    "MTT.Text.decInt_text",
    "MTT.Text.hexW_text",
    "MTT.Text.decInt_inj",
    "MTT.Text.strtoul_prefix",
    "MTT.Text.strtoul_bare",
    "MTT.Text.toInt_mod",
    "MTT.SFMT.getString_layout",
    "MTT.DSFMT.getString_layout",
    "MTT.RMT.getString_layout",
    "MTT.SFMT.parse_getString",
    "MTT.SFMT.parse_short",
    "MTT.DSFMT.parse_getString",
    "MTT.DSFMT.parse_prefix",
    "MTT.RMT.parse_getString"
   ],
   "note": "Texts are lists of characters; the sign of the decimal fields is non-negative as for every constructed generator."
  },
  {
   "property": "C70",
   "status": "proved",
   "theorems": [
    "MTT.SFMT.calcEquidist_correct",
    "MTT.SFMT.calcEquidist_reproduces",
    "MTT.SFMT.calcEquidist_seed",
    "MTT.SFMT.large_unique"
   ],
   "note": "NTL's MinPolySeq is a parameter with its specification. The tables of -v are not modelled."
  },
  {
   "property": "C71",
   "status": "proved",
   "theorems": [
    "MTT.SFMT.calcParity_correct",
    "MTT.SFMT.calcParity_line"
   ],
   "note": "NTL's MinPolySeq and kernel are parameters with their specifications. The self-test -c is not modelled."
  },
  {
   "property": "C72",
   "status": "proved",
   "theorems": [
    "MTT.DSFMT.calcEquidist_correct",
    "MTT.DSFMT.calcEquidist_reproduces",
    "MTT.DSFMT.calcEquidist_seed",
    "MTT.DSFMT.large_unique"
   ],
   "note": "NTL's MinPolySeq is a parameter with its specification. The tables of -v are not modelled."
  },
  {
   "property": "C73",
   "status": "proved",
   "theorems": [
    "MTT.DSFMT.calcFix_correct",
    "MTT.DSFMT.calcParity_correct",
    "MTT.DSFMT.tools_pipeline",
    "MTT.DSFMT.tools_line",
    "MTT.DSFMT.certified_period_fix"
   ],
   "note": "NTL's MinPolySeq, kernel and XGCD are parameters with their specifications. The self-tests -c are not modelled."
  },
  {
   "property": "C74",
   "status": "proved",
   "theorems": [
    "MTT.Search.reducibleAll_correct",
    "MTT.Search.reducibleOne_correct",
    "MTT.Search.component_period",
    "MTT.Search.component_nonzero",
    "MTT.Search.component_full",
    "MTT.Search.full_unique"
   ],
   "note": "NTL's MinPolySeq is a parameter with its specification."
  },
  {
   "property": "C75",
   "status": "proved",
   "theorems": [
    "MTT.RMT.calcEquidist_correct",
    "MTT.RMT.Table.unique",
    "MTT.RMT.calcEquidist_line"
   ],
   "note": "NTL's MinPolySeq is a parameter with its specification; exponents below 65 are not covered."
  },
  {
   "property": "C76",
   "status": "proved",
   "theorems": [
    "MTT.RMT.calcPeriod_correct"
   ],
   "note": "NTL's MinPolySeq is a parameter with its specification. For exponents that are not Mersenne exponents the printed statement need not be true."
  },
  {
   "property": "C77",
   "status": "proved",
   "theorems": [
    "MTT.Search.rrtSearch_correct",
    "MTT.Search.afterParity_correct",
    "MTT.Parity.Toy2.wrong_delta",
    "MTT.Parity.Toy2.right_delta"
   ],
   "note": "Contracts for NTL, the generator family and the tempering searches. wrong_delta is the counterexample for a setParityValue that writes into the state. The verbose output is not modelled."
  },
  {
   "property": "C78",
   "status": "proved",
   "theorems": [
    "MTT.MT.mt19937_period",
    "MTT.MT.mt19937_period_getUint64",
    "MTT.MT.mt19937_64_period"
   ],
   "note": ""
  },
  {
   "property": "C79",
   "status": "proved",
   "theorems": [
    "MTT.MT.mt19937_equidistributed",
    "MTT.MT.mt19937_64_equidistributed"
   ],
   "note": ""
  },
  {
   "property": "C80",
   "status": "proved",
   "theorems": [
    "MTT.TinyRef.next32_bijective",
    "MTT.TinyRef.init32_never_zero",
    "MTT.TinyRef.init32_injective",
    "MTT.TinyRef.initByArray32_never_zero",
    "MTT.TinyRef.next64_bijective",
    "MTT.TinyRef.init64_never_zero",
    "MTT.TinyRef.init64_injective",
    "MTT.TinyRef.initByArray64_never_zero"
   ],
   "note": ""
  },
  {
   "property": "C81",
   "status": "proved",
   "theorems": [
    "MTT.TinyRef.tiny_constructed",
    "MTT.TinyRef.tiny32_period",
    "MTT.TinyRef.tiny64_period"
   ],
   "note": ""
  },
  {
   "property": "C82",
   "status": "proved",
   "theorems": [
    "MTT.TinyRef.genFloat_exact",
    "MTT.TinyRef.genFloat12_exact",
    "MTT.TinyRef.genFloat01_exact",
    "MTT.TinyRef.genFloatOC_exact",
    "MTT.TinyRef.genFloatOO_exact",
    "MTT.TinyRef.gen32double_exact",
    "MTT.TinyRef.genDouble_exact",
    "MTT.TinyRef.genDouble12_exact",
    "MTT.TinyRef.genDouble01_exact",
    "MTT.TinyRef.genDoubleOC_exact",
    "MTT.TinyRef.genDoubleOO_exact",
    "MTT.TinyRef.gen32double_zero"
   ],
   "note": "Over the rationals with an abstract rounding function; stated as the code behaves (32double can return 0)."
  },
  {
   "property": "C83",
   "status": "proved",
   "theorems": [
    "MTT.XorShift.generate1_full",
    "MTT.XorShift.generate5_full",
    "MTT.XorShift.constructed_full",
    "MTT.XorShift.generate128_full",
    "MTT.XorShift.init128_full",
    "MTT.XorShift.published_found",
    "MTT.XorShift.main1_prints",
    "MTT.XorShift.main25_prints"
   ],
   "note": "NTL's MinPolySeq is a parameter with its specification (xorshift-1.cpp only)."
  },
  {
   "property": "C84",
   "status": "proved",
   "theorems": [
    "MTT.XorShift3.linGen",
    "MTT.XorShift3.family",
    "MTT.XorShift3.main_correct_from",
    "MTT.XorShift3.main_correct",
    "MTT.XorShift3.main_correct_table",
    "MTT.XorShift3.expected_complete",
    "MTT.XorShift3.published_found",
    "MTT.XorShift3.agrees_with_4"
   ],
   "note": "NTL's MinPolySeq is a parameter with its specification."
  },
  {
   "property": "C85",
   "status": "proved",
   "theorems": [
    "MTT.MT1.linGen",
    "MTT.MT1.copy_den",
    "MTT.MT1.published",
    "MTT.MT1.agrees_with_library",
    "MTT.MT1.period",
    "MTT.MT1.period_seed",
    "MTT.MT1.main_correct",
    "MTT.MT1.dimensions",
    "MTT.MT1.isZero_wrong"
   ],
   "note": ""
  },
  {
   "property": "C86",
   "status": "proved",
   "theorems": [
    "MTT.PIS.first_dimension",
    "MTT.XorShift3.first_dimension"
   ],
   "note": ""
  },
  {
   "property": "C87",
   "status": "proved",
   "theorems": [
    "MTT.MTDC.rtCall_correct",
    "MTT.MTDC.main_correct",
    "MTT.MTDC.main_finds",
    "MTT.MTDC.finds_mt19937"
   ],
   "note": ""
  },
  {
   "property": "C88",
   "status": "proved",
   "theorems": [
    "MTT.RMT.rmtMain_correct",
    "MTT.RMT.rmtMain_undefined",
    "MTT.RMT.rmtMain_finds",
    "MTT.RMT.run521"
   ],
   "note": ""
  },
  {
   "property": "C89",
   "status": "proved",
   "theorems": [
    "MTT.SFMT.dcFixed_correct",
    "MTT.SFMT.dcSearch_finds",
    "MTT.SFMT.dcFixed_finds",
    "MTT.SFMT.finds_sfmt607"
   ],
   "note": ""
  },
  {
   "property": "C90",
   "status": "proved",
   "theorems": [
    "MTT.DSFMT.dcSearch_finds",
    "MTT.DSFMT.finds_dsfmt1279",
    "MTT.DSFMT.never_dsfmt521",
    "MTT.DSFMT.hasLarge521"
   ],
   "note": ""
  },
  {
   "property": "C91",
   "status": "proved",
   "theorems": [
    "MTT.Options.strtol_numeral",
    "MTT.Options.strtol_none",
    "MTT.Options.strtol_iff",
    "MTT.Options.strtoull_decimal",
    "MTT.Options.strtoull_hex",
    "MTT.Options.strtoull_octal",
    "MTT.Options.strtoull_none",
    "MTT.Options.field_verbose",
    "MTT.Options.parseMexp_iff",
    "MTT.Options.parseMt2_iff",
    "MTT.Options.parseMtgp_iff",
    "MTT.Options.parseTiny_iff",
    "MTT.Options.stream32_eq",
    "MTT.Options.stream64_eq",
    "MTT.Options.sfmtdc_program",
    "MTT.Options.sfmtdcfixed_program",
    "MTT.Options.dsfmtdc_program",
    "MTT.Options.dsfmtdc_undefined",
    "MTT.Options.rmt64dc_program",
    "MTT.Options.mt2_program",
    "MTT.Options.mt2_seed",
    "MTT.Options.mtgp32dc_program",
    "MTT.Options.tinymt32dc_program",
    "MTT.Options.count_wraps",
    "MTT.Options.file_emptied",
    "MTT.Options.sfmtdc_search",
    "MTT.Options.sfmtdcfixed_search",
    "MTT.Options.dsfmtdc_search",
    "MTT.Options.rmt64dc_search",
    "MTT.Options.mt2_search",
    "MTT.Options.mtgp32dc_search"
   ],
   "note": "dSFMTdc --fixed 0 is not covered by dsfmtdc_program"
  },
  {
   "property": "C92",
   "status": "proved",
   "theorems": [
    "MTT.Tests.rtOps_linGen",
    "MTT.Tests.rlOps_linGen",
    "MTT.Tests.rtSeed_good",
    "MTT.Tests.rtGen_injective_iff",
    "MTT.Tests.rtDefault_period",
    "MTT.Tests.rlSeed_good",
    "MTT.Tests.rlGen_injective_iff",
    "MTT.Tests.tiny32_minpoly",
    "MTT.Tests.tiny64_minpoly",
    "MTT.Tests.rtDefault_minpoly",
    "MTT.Tests.rtB_minpoly",
    "MTT.Tests.rtC_minpoly",
    "MTT.Tests.rlD_minpoly",
    "MTT.Tests.rlE_minpoly",
    "MTT.Tests.testPeriod_passes"
   ],
   "note": "relative to the contract of MinPolySeq"
  },
  {
   "property": "C93",
   "status": "proved",
   "theorems": [
    "MTT.Tests.testTable_complete",
    "MTT.Tests.testTable_sound_partial",
    "MTT.Tests.testTable_wrong",
    "MTT.Tests.rtinyMain_spec"
   ],
   "note": "soundness of the table is false (testTable_wrong); what remains true is testTable_sound_partial"
  },
  {
   "property": "C94",
   "status": "proved",
   "theorems": [
    "MTT.Tests.tiny32_patterns",
    "MTT.Tests.tiny32_delta",
    "MTT.Tests.equidistTest_passes"
   ],
   "note": ""
  },
  {
   "property": "C95",
   "status": "proved",
   "theorems": [
    "MTT.Tests.mtLoop_iff",
    "MTT.Tests.mt_passes",
    "MTT.Tests.search_result",
    "MTT.Tests.search_found",
    "MTT.Tests.search_passes",
    "MTT.Tests.temper_keeps",
    "MTT.Tests.temper_passes",
    "MTT.Tests.searchTemper_result",
    "MTT.Tests.searchTemper_passes",
    "MTT.Tests.linearity_passes",
    "MTT.Tests.factors_passes",
    "MTT.Tests.version_passes",
    "MTT.Tests.version_iff"
   ],
   "note": "relative to the contract of MinPolySeq"
  },
  {
   "property": "C96",
   "status": "proved",
   "theorems": [
    "MTT.Tests.rlittleMain_spec",
    "MTT.Tests.head_text",
    "MTT.Tests.rlAt_succ",
    "MTT.Tests.rlittle_ends",
    "MTT.Tests.rlittle_endless"
   ],
   "note": "relative to the contract of MinPolySeq"
  },
  {
   "property": "C97",
   "status": "proved",
   "theorems": [
    "MTT.XorShift.tables_exact",
    "MTT.XorShift.xorshift2_text",
    "MTT.XorShift.xorshift5_text",
    "MTT.XorShift.xorshift128_text"
   ],
   "note": ""
  },
  {
   "property": "C98",
   "status": "proved",
   "theorems": [
    "MTT.SFMT.testPeriod_correct",
    "MTT.SFMT.testPeriod_full",
    "MTT.DSFMT.calcPeriod_correct",
    "MTT.DSFMT.calcPeriod_full",
    "MTT.SFMT.hasLarge_iff",
    "MTT.DSFMT.hasLarge_iff",
    "MTT.SFMT.periodModes_all",
    "MTT.DSFMT.periodModes_all"
   ],
   "note": "relative to the contract of MinPolySeq"
  },
  {
   "property": "C99",
   "status": "proved",
   "theorems": [
    "MTT.DSFMT.printBinary_layout",
    "MTT.DSFMT.printBinary_zero",
    "MTT.DSFMT.printBinary_inj",
    "MTT.DSFMT.oldHeader_layout",
    "MTT.DSFMT.oldFormat_correct",
    "MTT.DSFMT.oldFormat_seed",
    "MTT.DSFMT.oldFormat_good"
   ],
   "note": "relative to the contract of MinPolySeq"
  },
  {
   "property": "C100",
   "status": "proved",
   "theorems": [
    "MTT.SFMT.testLinearityMain_correct",
    "MTT.SFMT.linear_modes",
    "MTT.DSFMT.testLinearityMain_correct",
    "MTT.DSFMT.linear_modes",
    "MTT.Lin.lineSeeds_success",
    "MTT.SFMT.testLinearityMain_status",
    "MTT.MTGP.testLinearityMain_passes",
    "MTT.MTGP.lineTest_passes",
    "MTT.MTGP.tested_object",
    "MTT.SFMT.lineModeList_all",
    "MTT.DSFMT.lineModeList_all"
   ],
   "note": ""
  },
  {
   "property": "C101",
   "status": "proved",
   "theorems": [
    "MTT.SFMT.calcParityMain_correct",
    "MTT.SFMT.calcParityMain_line",
    "MTT.DSFMT.calcParityMain_correct",
    "MTT.DSFMT.calcParityMain_line",
    "MTT.ParityTest.testParity0_ok"
   ],
   "note": ""
  },
  {
   "property": "C102",
   "status": "proved",
   "theorems": [
    "MTT.DSFMT.calcFixMain_correct",
    "MTT.DSFMT.calcFixMain_line",
    "MTT.DSFMT.chkFix1_correct"
   ],
   "note": ""
  },
  {
   "property": "C103",
   "status": "proved",
   "theorems": [
    "MTT.SFMT.equidistMain_correct",
    "MTT.SFMT.equidistMain_line",
    "MTT.SFMT.equidistMain_seed",
    "MTT.DSFMT.equidistMain_correct",
    "MTT.DSFMT.equidistMain_line",
    "MTT.DSFMT.equidistMain_seed",
    "MTT.RMT.equidistMain_correct",
    "MTT.RMT.equidistMain_none"
   ],
   "note": ""
  },
  {
   "property": "C104",
   "status": "proved",
   "theorems": [
    "MTT.Getopt.option_fine",
    "MTT.Getopt.option_bad_last",
    "MTT.Getopt.option_bad_next",
    "MTT.SFMT.parityCommand_line",
    "MTT.SFMT.parityCommand_no_text",
    "MTT.SFMT.parityCommand_help_after",
    "MTT.SFMT.parityCommand_help_first",
    "MTT.DSFMT.parityCommand_line",
    "MTT.DSFMT.parityCommand_no_text",
    "MTT.DSFMT.parityCommand_help_after",
    "MTT.DSFMT.parityCommand_help_first",
    "MTT.DSFMT.fixCommand_line",
    "MTT.DSFMT.fixCommand_no_text",
    "MTT.DSFMT.fixCommand_help_after"
   ],
   "note": ""
  },
  {
   "property": "C105",
   "status": "proved",
   "theorems": [
    "MTT.GetoptLong.reads_total",
    "MTT.GetoptLong.reads_unique",
    "MTT.GetoptLong.sfmtdc_args",
    "MTT.GetoptLong.sfmtdcfixed_args",
    "MTT.GetoptLong.dsfmtdc_args",
    "MTT.GetoptLong.rmt64dc_args",
    "MTT.GetoptLong.mt2_args",
    "MTT.GetoptLong.mtgp32dc_args",
    "MTT.GetoptLong.tinymt32dc_args",
    "MTT.GetoptLong.equidistS_args",
    "MTT.GetoptLong.equidistD_args",
    "MTT.GetoptLong.equidistS_wrong",
    "MTT.GetoptLong.equidistD_wrong",
    "MTT.GetoptLong.equidistS_takes_option",
    "MTT.GetoptLong.equidistD_takes_option",
    "MTT.GetoptLong.long_short",
    "MTT.GetoptLong.long_value",
    "MTT.GetoptLong.long_flag",
    "MTT.GetoptLong.sfmtdc_usage",
    "MTT.GetoptLong.sfmtdcfixed_usage",
    "MTT.GetoptLong.dsfmtdc_usage",
    "MTT.GetoptLong.rmt64dc_usage",
    "MTT.GetoptLong.mt2_usage",
    "MTT.GetoptLong.mtgp32dc_usage",
    "MTT.GetoptLong.tinymt32dc_usage",
    "MTT.GetoptLong.equidistS_usage",
    "MTT.GetoptLong.equidistD_usage"
   ],
   "note": ""
  },
  {
   "property": "C106",
   "status": "proved",
   "theorems": [
    "MTT.Getopt.argvAfter_fine",
    "MTT.DSFMT.oldCommand_text",
    "MTT.DSFMT.oldCommand_option",
    "MTT.DSFMT.oldCommand_nil",
    "MTT.DSFMT.oldCommand_help"
   ],
   "note": ""
  },
  {
   "property": "C107",
   "status": "proved",
   "theorems": [
    "MTT.SearchText.commas",
    "MTT.SearchText.mtgp_columns",
    "MTT.SearchText.lines_of_text",
    "MTT.SearchText.sfmtdc_text",
    "MTT.SearchText.sfmtdcfixed_text",
    "MTT.SearchText.dsfmtdc_text",
    "MTT.SearchText.rmt64dc_text",
    "MTT.SearchText.mt2_text",
    "MTT.SearchText.mtgp32dc_text",
    "MTT.SearchText.tinymt32dc_text",
    "MTT.SearchText.again",
    "MTT.SearchText.rmt_line",
    "MTT.SearchText.excess_pos"
   ],
   "note": "rmt64dc, mt2, MTGP32dc and tinymt32dc without -v"
  },
  {
   "property": "C108",
   "status": "proved",
   "theorems": [
    "MTT.PolyText.printBinary_zero",
    "MTT.PolyText.printBinary_plain",
    "MTT.PolyText.printBinary_rows",
    "MTT.PolyText.printBinary_inj",
    "MTT.PolyText.shaText_eq",
    "MTT.PolyText.shaText_inj",
    "MTT.PolyText.digestText_length",
    "MTT.PolyText.digestText_chars",
    "MTT.PolyText.digestText_inj",
    "MTT.PolyText.polySha1_collision",
    "MTT.PolyText.shaCell_eq",
    "MTT.PolyText.shaCell_unended"
   ],
   "note": "SHA-1 is a parameter"
  },
  {
   "property": "C109",
   "status": "proved",
   "theorems": [
    "MTT.Verbose.partialBitPattern_same",
    "MTT.Verbose.partialBitPattern_quiet",
    "MTT.Verbose.bestBits_same",
    "MTT.Verbose.bestBits_quiet",
    "MTT.Verbose.searchBest_says",
    "MTT.Verbose.partialBitPattern_says",
    "MTT.Verbose.bestBits_says",
    "MTT.Verbose.kv_text",
    "MTT.Verbose.start_examines",
    "MTT.Verbose.rStart_examines",
    "MTT.Verbose.notFound_lines",
    "MTT.Verbose.notFound_wrong",
    "MTT.Verbose.findLoop_overflow",
    "MTT.Verbose.rtSearch_quiet",
    "MTT.Verbose.rtSearch_same",
    "MTT.Verbose.rtSearch_same_of",
    "MTT.Verbose.rrtSearch_quiet",
    "MTT.Verbose.rrtSearch_same",
    "MTT.TinyMT.honest",
    "MTT.TinyMT.table_spec",
    "MTT.TinyMT.allSearchV_same",
    "MTT.TinyMT.dcMainV_same",
    "MTT.TinyMT.lsb_says_msb",
    "MTT.TinyMT.str_row"
   ],
   "note": "the number in the line \"not found in\" is wrong, see DESIGN.md"
  },
  {
   "property": "C110",
   "status": "proved",
   "theorems": [
    "MTT.MTDC.rtCallV_same",
    "MTT.MTDC.rtCallV_quiet",
    "MTT.MTDC.paramString_row",
    "MTT.MTDC.mainV_same",
    "MTT.MTDC.verbose_mt19937",
    "MTT.MTGP.allSearchV_same",
    "MTT.MTGP.paramString_row",
    "MTT.MTGP.indexedSearchV_same",
    "MTT.MTGP.dcMainV_same",
    "MTT.Verbose.temperV_str",
    "MTT.RMT.allSearchV_same",
    "MTT.RMT.paramString_row",
    "MTT.RMT.searchLinesV_same",
    "MTT.RMT.rmtMainV_same",
    "MTT.RMT.verbose521",
    "MTT.MTDC.rtCallV_says",
    "MTT.MTGP.allSearchV_says",
    "MTT.RMT.allSearchV_says"
   ],
   "note": ""
  },
  {
   "property": "C111",
   "status": "proved",
   "theorems": [
    "MTT.MT.seed_streams32",
    "MTT.MT.seed_streams64",
    "MTT.MT.key_streams32",
    "MTT.MT.key_streams64",
    "MTT.MT.key_limit32",
    "MTT.MT.key_limit64",
    "MTT.MT.key_lengths_collide32",
    "MTT.MT.key_lengths_collide64",
    "MTT.MT.strings_collide"
   ],
   "note": ""
  },
  {
   "property": "C112",
   "status": "proved",
   "theorems": [
    "MTT.TinyRef.initByArray32_word",
    "MTT.TinyRef.initByArray32_uses",
    "MTT.TinyRef.array_word",
    "MTT.TinyRef.array_length"
   ],
   "note": ""
  },
  {
   "property": "C113",
   "status": "proved",
   "theorems": [
    "MTT.MTDC.seed_restarts",
    "MTT.MTGP.seed_restarts",
    "MTT.RMT.seed_restarts",
    "MTT.SFMT.seed_restarts",
    "MTT.DSFMT.seed_restarts",
    "MTT.TinyMT.seed_restarts",
    "MTT.XorShift.seed_restarts",
    "MTT.DSFMT.seed_collisions",
    "MTT.MTDC.seeds_mt19937"
   ],
   "note": ""
  },
  {
   "property": "C114",
   "status": "proved",
   "theorems": [
    "MTT.MTDC.reverse_output",
    "MTT.MTGP.reverse_output",
    "MTT.RMT.reverse_output",
    "MTT.TinyMT.reverse_output",
    "MTT.SFMT.reverse_output",
    "MTT.SFMT.modes",
    "MTT.DSFMT.modes",
    "MTT.SFMT.set_parity",
    "MTT.RMT.set_parity",
    "MTT.DSFMT.set_parity",
    "MTT.DSFMT.set_prefix",
    "MTT.DSFMT.set_fixed",
    "MTT.DSFMT.reverse_ignored"
   ],
   "note": ""
  },
  {
   "property": "C115",
   "status": "proved",
   "theorems": [
    "MTT.Search.start_first",
    "MTT.Search.rStart_first",
    "MTT.Anni.rStart_first",
    "MTT.MTDC.start_first",
    "MTT.MTGP.start_first",
    "MTT.RMT.start_first",
    "MTT.SFMT.start_first",
    "MTT.DSFMT.start_first",
    "MTT.SFMT.start_first_fixed",
    "MTT.MTDC.top_bit"
   ],
   "note": ""
  },
  {
   "property": "C116",
   "status": "proved",
   "theorems": [
    "MTT.Period.ctor_numbers",
    "MTT.Period.ctor_correct",
    "MTT.Period.ctor_two",
    "MTT.Period.ctor_garbage"
   ],
   "note": ""
  },
  {
   "property": "C117",
   "status": "proved",
   "theorems": [
    "MTT.SFMT.dump_inj",
    "MTT.SFMT.dump_shape",
    "MTT.DSFMT.dump_inj",
    "MTT.DSFMT.dump_shape"
   ],
   "note": ""
  },
  {
   "property": "C118",
   "status": "proved",
   "theorems": [
    "MTT.Search.one_cycle",
    "MTT.Search.one_stream",
    "MTT.Search.low_bits",
    "MTT.Search.same_measure"
   ],
   "note": ""
  },
  {
   "property": "C119",
   "status": "proved",
   "theorems": [
    "MTT.MTDC.main_lines",
    "MTT.MTDC.main_ends",
    "MTT.MTDC.best_good"
   ],
   "note": ""
  },
  {
   "property": "C120",
   "status": "proved",
   "theorems": [
    "MTT.MTGP.indexedSearch_first",
    "MTT.MTGP.dcMain_first",
    "MTT.MTGP.dcMain_ends"
   ],
   "note": ""
  },
  {
   "property": "C121",
   "status": "proved",
   "theorems": [
    "MTT.RMT.rmtMain_sets",
    "MTT.SFMT.dcSearch_sets",
    "MTT.SFMT.dcFixed_sets",
    "MTT.DSFMT.dcSearch_sets"
   ],
   "note": ""
  },
  {
   "property": "C122",
   "status": "proved",
   "theorems": [
    "MTT.SFMT.dcSearch_extends",
    "MTT.SFMT.dcSearch_repeats",
    "MTT.SFMT.dcFixed_extends",
    "MTT.SFMT.dcFixed_repeats",
    "MTT.DSFMT.dcSearch_extends",
    "MTT.DSFMT.dcSearch_repeats"
   ],
   "note": ""
  },
  {
   "property": "C123",
   "status": "proved",
   "theorems": [
    "MTT.TinyMT.dcMain_lines",
    "MTT.TinyMT.freshLine_good",
    "MTT.TinyMT.dcMain_extends",
    "MTT.TinyMT.dcMain_suffix"
   ],
   "note": ""
  },
  {
   "property": "C124",
   "status": "proved",
   "theorems": [
    "MTT.TinyMT.numbers_default",
    "MTT.TinyMT.freshLine_default",
    "MTT.TinyMT.default_line",
    "MTT.TinyMT.default_args",
    "MTT.TinyMT.default_text"
   ],
   "note": ""
  },
  {
   "property": "C125",
   "status": "proved",
   "theorems": [
    "MTT.TinyMT.dcMain_distinct",
    "MTT.TinyMT.dcMain_disjoint",
    "MTT.TinyMT.freshLine_top"
   ],
   "note": ""
  },
  {
   "property": "C126",
   "status": "proved",
   "theorems": [
    "MTT.MTDC.main_extends",
    "MTT.MTDC.main_repeats",
    "MTT.MTDC.main_shorter",
    "MTT.MTGP.dcMain_split",
    "MTT.MTGP.dcMain_repeats"
   ],
   "note": ""
  },
  {
   "property": "C127",
   "status": "proved",
   "theorems": [
    "MTT.TinyRef.tiny64_merges",
    "MTT.TinyRef.tiny64_same",
    "MTT.TinyRef.tiny64_at_most_two",
    "MTT.TinyRef.init64_at_most_two",
    "MTT.TinyRef.tiny32_differ"
   ],
   "note": ""
  },
  {
   "property": "C128",
   "status": "proved",
   "theorems": [
    "MTT.TinyMT.nonLinear_low",
    "MTT.TinyMT.nonLinear_search",
    "MTT.TinyMT.nonLinear_not_linear",
    "MTT.TinyMT.nonLinear_reference",
    "MTT.TinyMT.noTemper_linGen",
    "MTT.TinyMT.noTemper_equidist",
    "MTT.TinyMT.noTemper_pattern",
    "MTT.TinyMT.noTemper_search",
    "MTT.TinyMT.variants_period"
   ],
   "note": ""
  },
  {
   "property": "C129",
   "status": "proved",
   "theorems": [
    "MTT.TinyMT.uniform",
    "MTT.TinyMT.uniform_number",
    "MTT.TinyRef.uniform32",
    "MTT.TinyRef.uniform_float",
    "MTT.TinyRef.zeros_32double",
    "MTT.TinyRef.tiny32_maximal"
   ],
   "note": ""
  },
  {
   "property": "C130",
   "status": "proved",
   "theorems": [
    "MTT.Util.get_range_count",
    "MTT.Util.get_range_uniform_iff",
    "MTT.Util.mt_range",
    "MTT.Util.mt64_range"
   ],
   "note": ""
  },
  {
   "property": "C131",
   "status": "proved",
   "theorems": [
    "MTT.MT.one_stream32",
    "MTT.MT.one_stream64",
    "MTT.MT.predict32",
    "MTT.MT.predict64",
    "MTT.MT.next_words32",
    "MTT.MT.next_words64"
   ],
   "note": ""
  },
  {
   "property": "C132",
   "status": "proved",
   "theorems": [
    "MTT.MT.mt19937_getUint64_equidistributed",
    "MTT.MT.mt19937_64_getUint32_equidistributed"
   ],
   "note": ""
  },
  {
   "property": "C133",
   "status": "proved",
   "theorems": [
    "MTT.MT.mt19937_complexity",
    "MTT.MT.mt19937_64_complexity",
    "MTT.MT.mt19937_no_short_relation"
   ],
   "note": ""
  },
  {
   "property": "C134",
   "status": "proved",
   "theorems": [
    "MTT.Search.mask_minpoly",
    "MTT.Search.bit_minpoly",
    "MTT.Search.low_minpoly"
   ],
   "note": ""
  },
  {
   "property": "C135",
   "status": "proved",
   "theorems": [
    "MTT.TinyRef.tiny32_one_stream",
    "MTT.TinyRef.tiny64_one_stream",
    "MTT.TinyRef.tiny_seeds_one_stream"
   ],
   "note": ""
  },
  {
   "property": "C136",
   "status": "proved",
   "theorems": [
    "MTT.TinyRef.uniform64",
    "MTT.TinyRef.tiny64_number",
    "MTT.TinyRef.tiny64_double",
    "MTT.TinyRef.low64",
    "MTT.TinyRef.odd_tmat_even"
   ],
   "note": ""
  },
  {
   "property": "C137",
   "status": "proved",
   "theorems": [
    "MTT.XorShift.quad_once",
    "MTT.XorShift.quad_ne_zero",
    "MTT.XorShift.quad_count",
    "MTT.XorShift.quad_predicts",
    "MTT.XorShift.one_stream",
    "MTT.XorShift.maximal_iff_quads",
    "MTT.XorShift.prints_quads"
   ],
   "note": ""
  }
 ]
}