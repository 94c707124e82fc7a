import Verif.MT.SeedInj

/-!
# C111: different seeds give different streams
-/

namespace MTT.MT

open MTRec

/-- Two streams differ among the first `N` results and infinitely often. -/
def Apart (N : ℕ) (y y' : ℕ → BitVec 64) : Prop := (∃ k, k < N ∧ y k ≠ y' k) ∧ ∀ K, ∃ k, K ≤ k ∧ y k ≠ y' k

/-! ## Helpers -/

theorem delivers_unique {w : ℕ} {step : St w → Op w → Option (St w × BitVec 64)} {s : St w} {o g : Op w} {y y' : ℕ → BitVec 64}
    (h : Delivers step s o g y) (h' : Delivers step s o g y') : y = y' := by
  funext k
  obtain ⟨t, e⟩ := h (k + 1)
  obtain ⟨t', e'⟩ := h' (k + 1)
  rw [e] at e'
  injection e' with e'
  injection e' with _ e'
  injection e' with _ e'
  have := congrArg (fun l => l[k]?) e'
  simpa using this

theorem ref_delivers32 (s : St 32) (o : Op 32) (ho : o.IsSeed) (hv : o.Valid) :
    Delivers step32 s o .getNative (fun k => (temper32 ((ref32 ⟨0, 0⟩ o).1.x (624 + k))).setWidth 64) ∧
    Delivers step32 s o .getOther (fun k => temper32 ((ref32 ⟨0, 0⟩ o).1.x (624 + 2 * k)) ++
      temper32 ((ref32 ⟨0, 0⟩ o).1.x (624 + (2 * k + 1)))) := by
  constructor
  · intro n
    obtain ⟨s', h⟩ := history32 s o _ ho (valid_replicate hv (g := .getNative) trivial n)
    refine ⟨s', h.trans ?_⟩
    rw [refRun, refRun_native32]
    cases o with
    | seed v => simp only [ref32, Nat.zero_add]
    | seedArr cells len => simp only [ref32, Nat.zero_add]
    | getNative => exact ho.elim
    | getOther => exact ho.elim
  · intro n
    obtain ⟨s', h⟩ := history32 s o _ ho (valid_replicate hv (g := .getOther) trivial n)
    refine ⟨s', h.trans ?_⟩
    rw [refRun, refRun_other32]
    cases o with
    | seed v => simp only [ref32, Ref.out32, Nat.zero_add]
    | seedArr cells len => simp only [ref32, Ref.out32, Nat.zero_add]
    | getNative => exact ho.elim
    | getOther => exact ho.elim

theorem ref_delivers64 (s : St 64) (o : Op 64) (ho : o.IsSeed) (hv : o.Valid) :
    Delivers step64 s o .getNative (fun k => temper64 ((ref64 ⟨0, 0⟩ o).1.x (312 + k))) ∧
    Delivers step64 s o .getOther (fun k => ((temper64 ((ref64 ⟨0, 0⟩ o).1.x (312 + k))).extractLsb' 32 32).setWidth 64) := by
  constructor
  · intro n
    obtain ⟨s', h⟩ := history64 s o _ ho (valid_replicate hv (g := .getNative) trivial n)
    refine ⟨s', h.trans ?_⟩
    rw [refRun, refRun_native64]
    cases o with
    | seed v => simp only [ref64, Nat.zero_add]
    | seedArr cells len => simp only [ref64, Nat.zero_add]
    | getNative => exact ho.elim
    | getOther => exact ho.elim
  · intro n
    obtain ⟨s', h⟩ := history64 s o _ ho (valid_replicate hv (g := .getOther) trivial n)
    refine ⟨s', h.trans ?_⟩
    rw [refRun, refRun_other64]
    cases o with
    | seed v => simp only [ref64, Nat.zero_add]
    | seedArr cells len => simp only [ref64, Nat.zero_add]
    | getNative => exact ho.elim
    | getOther => exact ho.elim

theorem ref_isSeq32 {o : Op 32} (ho : o.IsSeed) : IsSeq P32 (ref32 ⟨0, 0⟩ o).1.x := by
  cases o with
  | seed v => exact ext_isSeq P32_ok _
  | seedArr cells len => exact ext_isSeq P32_ok _
  | getNative => exact ho.elim
  | getOther => exact ho.elim

theorem ref_isSeq64 {o : Op 64} (ho : o.IsSeed) : IsSeq P64 (ref64 ⟨0, 0⟩ o).1.x := by
  cases o with
  | seed v => exact ext_isSeq P64_ok _
  | seedArr cells len => exact ext_isSeq P64_ok _
  | getNative => exact ho.elim
  | getOther => exact ho.elim

theorem xor_state_ne {w : ℕ} {P : MTPar w} {x x' : ℕ → BitVec w} (h : seqState P x 0 ≠ seqState P x' 0) :
    seqState P (fun k => x k ^^^ x' k) 0 ≠ 0 := by
  intro h0
  apply h
  have e : seqState P (fun k => x k ^^^ x' k) 0 = seqState P (fun _ => 0) 0 := by
    rw [h0]
    unfold seqState
    rw [hi_zero]
    rfl
  obtain ⟨e1, e2⟩ := seqState_eq_iff.1 e
  rw [hi_xor, hi_zero] at e1
  exact seqState_eq_iff.2 ⟨xor_eq_zero' e1, fun j h1 h2 => xor_eq_zero' (e2 j h1 h2)⟩

theorem one_lt_period {n : ℕ} (hn : n = 19937) : ¬ 2 ^ n - 1 ∣ 1 := by
  intro h
  have h1 := Nat.dvd_one.1 h
  have h2 : 2 ^ 2 ≤ 2 ^ n := Nat.pow_le_pow_right (by omega) (by omega)
  omega

theorem words_apart32 {x x' : ℕ → BitVec 32} (hx : IsSeq P32 x) (hx' : IsSeq P32 x') (h : seqState P32 x 0 ≠ seqState P32 x' 0) :
    (∃ k, k < 624 ∧ x (624 + k) ≠ x' (624 + k)) ∧ ∀ K, ∃ k, K ≤ k ∧ x (624 + k) ≠ x' (624 + k) := by
  constructor
  · by_contra hc
    push Not at hc
    exact h (seqState_of_words P32_ok (by decide) (by decide) hx hx' hc)
  · intro K
    by_contra hc
    push Not at hc
    obtain ⟨n, hn⟩ : ∃ n, n = 19937 := ⟨_, rfl⟩
    refine one_lt_period hn ((words32 hn (isSeq_xor hx hx') (xor_state_ne h) K 1).1 fun k hk => ?_)
    rw [hc k hk, hc (k + 1) (by omega), BitVec.xor_self, BitVec.xor_self]

theorem words_apart64 {x x' : ℕ → BitVec 64} (hx : IsSeq P64 x) (hx' : IsSeq P64 x') (h : seqState P64 x 0 ≠ seqState P64 x' 0) :
    (∃ k, k < 312 ∧ x (312 + k) ≠ x' (312 + k)) ∧ (∀ K, ∃ k, K ≤ k ∧ x (312 + k) ≠ x' (312 + k)) ∧
      ∀ K, ∃ k, K ≤ k ∧ (temper64 (x (312 + k))).extractLsb' 32 32 ≠ (temper64 (x' (312 + k))).extractLsb' 32 32 := by
  obtain ⟨n, hn⟩ : ∃ n, n = 19937 := ⟨_, rfl⟩
  refine ⟨?_, fun K => ?_, fun K => ?_⟩
  · by_contra hc
    push Not at hc
    exact h (seqState_of_words P64_ok (by decide) (by decide) hx hx' hc)
  · by_contra hc
    push Not at hc
    refine one_lt_period hn ((seq_period P64_ok (by decide) (by decide) (by decide) (by omega) (dimension.2.trans hn.symm)
      (GF2.MT64.primitive hn) (isSeq_xor hx hx') (xor_state_ne h) (id_ne_zero (w := 64) (by decide)) K 1).1 fun k hk => ?_)
    show Wd.of (x (312 + (k + 1)) ^^^ x' (312 + (k + 1))) = Wd.of (x (312 + k) ^^^ x' (312 + k))
    rw [hc k hk, hc (k + 1) (by omega), BitVec.xor_self, BitVec.xor_self]
  · by_contra hc
    push Not at hc
    refine one_lt_period hn ((seq_period P64_ok (by decide) (by decide) (by decide) (by omega) (dimension.2.trans hn.symm)
      (GF2.MT64.primitive hn) (isSeq_xor hx hx') (xor_state_ne h) upperHalf_ne_zero K 1).1 fun k hk => ?_)
    have hz : ∀ k, K ≤ k → upperHalf (Wd.of (x (312 + k) ^^^ x' (312 + k))) = 0 := fun k hk => by
      have e : upperHalf (Wd.of (x (312 + k))) = upperHalf (Wd.of (x' (312 + k))) := congrArg Wd.of (hc k hk)
      rw [Wd.of_xor, map_add, e]
      exact Wd.ext BitVec.xor_self
    rw [show P64.n = 312 from rfl]
    exact (hz (k + 1) (by omega)).trans (hz k hk).symm

theorem mul_inj {w : ℕ} {m i : BitVec w} (h : i * m = 1) {x y : BitVec w} (e : m * x = m * y) : x = y := by
  have := congrArg (i * ·) e
  simp only [← BitVec.mul_assoc, h] at this
  simpa using this

theorem refSeed_inj {w : ℕ} {C : Consts w} (hs : 1 ≤ C.sh) {i : BitVec w} (hi : i * C.mul = 1) {v v' : BitVec w}
    (h : refSeed C v 1 = refSeed C v' 1) : v = v' := by
  have h1 : C.mul * (v ^^^ (v >>> C.sh)) + BitVec.ofNat w 1 = C.mul * (v' ^^^ (v' >>> C.sh)) + BitVec.ofNat w 1 := h
  exact shr_inj hs (mul_inj hi ((BitVec.add_left_inj _).1 h1))

theorem take_eq_of_getD {w : ℕ} {a b : List (BitVec w)} {len : ℕ} (ha : len ≤ a.length) (hb : len ≤ b.length)
    (h : ∀ j, j < len → a.getD j 0 = b.getD j 0) : a.take len = b.take len := by
  apply List.ext_getElem
  · simp [ha, hb]
  · intro j h1 h2
    have hj : j < len := by simp at h1; omega
    have := h j hj
    simp only [List.getD, List.getElem?_eq_getElem (show j < a.length by omega), List.getElem?_eq_getElem (show j < b.length by omega),
      Option.getD_some] at this
    simpa using this

/-- What the streams of two seeding calls have in common. -/
theorem streams32 {s s' : St 32} {o o' : Op 32} (ho : o.IsSeed) (ho' : o'.IsSeed) (hv : o.Valid) (hv' : o'.Valid)
    {y y' z z' : ℕ → BitVec 64} (h : Delivers step32 s o .getNative y) (h' : Delivers step32 s' o' .getNative y')
    (k : Delivers step32 s o .getOther z) (k' : Delivers step32 s' o' .getOther z') :
    (seqState P32 (ref32 ⟨0, 0⟩ o).1.x 0 = seqState P32 (ref32 ⟨0, 0⟩ o').1.x 0 → y = y' ∧ z = z') ∧
    (seqState P32 (ref32 ⟨0, 0⟩ o).1.x 0 ≠ seqState P32 (ref32 ⟨0, 0⟩ o').1.x 0 → Apart 624 y y' ∧ Apart 312 z z') := by
  obtain ⟨d1, d2⟩ := ref_delivers32 s o ho hv
  obtain ⟨d1', d2'⟩ := ref_delivers32 s' o' ho' hv'
  obtain rfl := delivers_unique h d1
  obtain rfl := delivers_unique h' d1'
  obtain rfl := delivers_unique k d2
  obtain rfl := delivers_unique k' d2'
  constructor
  · intro e
    have hw := words_of_seqState P32_ok (ref_isSeq32 ho) (ref_isSeq32 ho') e
    have hw' : ∀ k, (ref32 ⟨0, 0⟩ o).1.x (624 + k) = (ref32 ⟨0, 0⟩ o').1.x (624 + k) := hw
    constructor
    · funext k; simp only [hw']
    · funext k; simp only [hw']
  · intro e
    obtain ⟨e1, e2⟩ := words_apart32 (ref_isSeq32 ho) (ref_isSeq32 ho') e
    refine ⟨⟨?_, fun K => ?_⟩, ?_, fun K => ?_⟩
    · obtain ⟨k, h1, h2⟩ := e1
      exact ⟨k, h1, fun h => h2 (temper32_injective (setWidth_inj.1 h))⟩
    · obtain ⟨k, h1, h2⟩ := e2 K
      exact ⟨k, h1, fun h => h2 (temper32_injective (setWidth_inj.1 h))⟩
    · obtain ⟨k, h1, h2⟩ := e1
      refine ⟨k / 2, by omega, fun h => h2 ?_⟩
      obtain ⟨h3, h4⟩ := append_inj.1 h
      rcases Nat.mod_two_eq_zero_or_one k with hk | hk
      · have := temper32_injective h3
        rwa [show 2 * (k / 2) = k by omega] at this
      · have := temper32_injective h4
        rwa [show 2 * (k / 2) + 1 = k by omega] at this
    · obtain ⟨k, h1, h2⟩ := e2 (2 * K)
      refine ⟨k / 2, by omega, fun h => h2 ?_⟩
      obtain ⟨h3, h4⟩ := append_inj.1 h
      rcases Nat.mod_two_eq_zero_or_one k with hk | hk
      · have := temper32_injective h3
        rwa [show 2 * (k / 2) = k by omega] at this
      · have := temper32_injective h4
        rwa [show 2 * (k / 2) + 1 = k by omega] at this

theorem streams64 {s s' : St 64} {o o' : Op 64} (ho : o.IsSeed) (ho' : o'.IsSeed) (hv : o.Valid) (hv' : o'.Valid)
    {y y' z z' : ℕ → BitVec 64} (h : Delivers step64 s o .getNative y) (h' : Delivers step64 s' o' .getNative y')
    (k : Delivers step64 s o .getOther z) (k' : Delivers step64 s' o' .getOther z') :
    (seqState P64 (ref64 ⟨0, 0⟩ o).1.x 0 = seqState P64 (ref64 ⟨0, 0⟩ o').1.x 0 → y = y' ∧ z = z') ∧
    (seqState P64 (ref64 ⟨0, 0⟩ o).1.x 0 ≠ seqState P64 (ref64 ⟨0, 0⟩ o').1.x 0 →
      Apart 312 y y' ∧ ∀ K, ∃ k, K ≤ k ∧ z k ≠ z' k) := by
  obtain ⟨d1, d2⟩ := ref_delivers64 s o ho hv
  obtain ⟨d1', d2'⟩ := ref_delivers64 s' o' ho' hv'
  obtain rfl := delivers_unique h d1
  obtain rfl := delivers_unique h' d1'
  obtain rfl := delivers_unique k d2
  obtain rfl := delivers_unique k' d2'
  constructor
  · intro e
    have hw := words_of_seqState P64_ok (ref_isSeq64 ho) (ref_isSeq64 ho') e
    have hw' : ∀ k, (ref64 ⟨0, 0⟩ o).1.x (312 + k) = (ref64 ⟨0, 0⟩ o').1.x (312 + k) := hw
    constructor
    · funext k; simp only [hw']
    · funext k; simp only [hw']
  · intro e
    obtain ⟨e1, e2, e3⟩ := words_apart64 (ref_isSeq64 ho) (ref_isSeq64 ho') e
    refine ⟨⟨?_, fun K => ?_⟩, fun K => ?_⟩
    · obtain ⟨k, h1, h2⟩ := e1
      exact ⟨k, h1, fun h => h2 (temper64_injective h)⟩
    · obtain ⟨k, h1, h2⟩ := e2 K
      exact ⟨k, h1, fun h => h2 (temper64_injective h)⟩
    · obtain ⟨k, h1, h2⟩ := e3 K
      exact ⟨k, h1, fun h => h2 (setWidth_inj.1 h)⟩

/-! ## The theorems

`y`, `y'` are the streams of `getUint32` of the 32-bit class (`getUint64` of the 64-bit class), `z`, `z'` those of `getUint64`
(`getUint32`). -/

/-- **C111.**  `MersenneTwister::seed(value)`: equal streams if the lower 32 bits of the values are equal, otherwise streams that differ
among the first 624 words and infinitely often. -/
theorem seed_streams32 {s s' : St 32} {v v' : BitVec 64} {y y' z z' : ℕ → BitVec 64}
    (h : Delivers step32 s (.seed v) .getNative y) (h' : Delivers step32 s' (.seed v') .getNative y')
    (k : Delivers step32 s (.seed v) .getOther z) (k' : Delivers step32 s' (.seed v') .getOther z') :
    (v.toNat % 2 ^ 32 = v'.toNat % 2 ^ 32 → y = y' ∧ z = z') ∧
    (v.toNat % 2 ^ 32 ≠ v'.toNat % 2 ^ 32 → Apart 624 y y' ∧ Apart 312 z z') := by
  obtain ⟨e1, e2⟩ := streams32 (o := .seed v) (o' := .seed v') trivial trivial trivial trivial h h' k k'
  have hv : v.toNat % 2 ^ 32 = v'.toNat % 2 ^ 32 ↔ v.setWidth 32 = v'.setWidth 32 := by
    rw [← BitVec.toNat_inj, BitVec.toNat_setWidth, BitVec.toNat_setWidth]
  rw [Ne, hv]
  refine ⟨fun hh => e1 ?_, fun hh => e2 fun e => hh ?_⟩
  · show seqState P32 (ext P32 (refSeed C32 (v.setWidth 32))) 0 = seqState P32 (ext P32 (refSeed C32 (v'.setWidth 32))) 0
    rw [hh]
  · have := (seqState_eq_iff.1 e).2 1 le_rfl (by decide)
    rw [show (ref32 ⟨0, 0⟩ (.seed v)).1.x 1 = refSeed C32 (v.setWidth 32) 1 from ext_init (P := P32) _ (by decide),
      show (ref32 ⟨0, 0⟩ (.seed v')).1.x 1 = refSeed C32 (v'.setWidth 32) 1 from ext_init (P := P32) _ (by decide)] at this
    exact refSeed_inj (C := C32) (by decide) (i := 0x9638806d) (by decide) this

/-- **C111.**  `MersenneTwister64::seed(value)`: no two values give the same stream. -/
theorem seed_streams64 {s s' : St 64} {v v' : BitVec 64} {y y' z z' : ℕ → BitVec 64}
    (h : Delivers step64 s (.seed v) .getNative y) (h' : Delivers step64 s' (.seed v') .getNative y')
    (k : Delivers step64 s (.seed v) .getOther z) (k' : Delivers step64 s' (.seed v') .getOther z') (hv : v ≠ v') :
    Apart 312 y y' ∧ ∀ K, ∃ k, K ≤ k ∧ z k ≠ z' k := by
  refine (streams64 (o := .seed v) (o' := .seed v') trivial trivial trivial trivial h h' k k').2 fun e => hv ?_
  have := (seqState_eq_iff.1 e).2 1 le_rfl (by decide)
  rw [show (ref64 ⟨0, 0⟩ (.seed v)).1.x 1 = refSeed C64 v 1 from ext_init (P := P64) _ (by decide),
    show (ref64 ⟨0, 0⟩ (.seed v')).1.x 1 = refSeed C64 v' 1 from ext_init (P := P64) _ (by decide)] at this
  exact refSeed_inj (C := C64) (by decide) (i := 0xc097ef87329e28a5) (by decide) this

/-- **C111.**  Array seeding of `MersenneTwister` with keys of the same length, up to 622 words: equal keys give equal streams and
different keys give different ones. -/
theorem key_streams32 {s s' : St 32} {a a' : List (BitVec 32)} {len : ℕ} (h1 : 1 ≤ len) (h2 : len ≤ 622) (ha : len ≤ a.length)
    (ha' : len ≤ a'.length) {y y' z z' : ℕ → BitVec 64}
    (h : Delivers step32 s (.seedArr a len) .getNative y) (h' : Delivers step32 s' (.seedArr a' len) .getNative y')
    (k : Delivers step32 s (.seedArr a len) .getOther z) (k' : Delivers step32 s' (.seedArr a' len) .getOther z')
    (hne : a.take len ≠ a'.take len) : Apart 624 y y' ∧ Apart 312 z z' := by
  refine (streams32 (o := .seedArr a len) (o' := .seedArr a' len) trivial trivial ⟨ha, by omega⟩ ⟨ha', by omega⟩ h h' k k').2 fun e => hne ?_
  refine take_eq_of_getD ha ha' (refArray_inj (C := C32) (by decide) h1 (by show len + 2 ≤ 624; omega) fun j h3 h4 => ?_)
  have := (seqState_eq_iff.1 e).2 j h3 h4
  rwa [show (ref32 ⟨0, 0⟩ (.seedArr a len)).1.x j = refArray C32 (fun j => a.getD j 0) len j from ext_init (P := P32) _ h4,
    show (ref32 ⟨0, 0⟩ (.seedArr a' len)).1.x j = refArray C32 (fun j => a'.getD j 0) len j from ext_init (P := P32) _ h4] at this

/-- **C111.**  The same for `MersenneTwister64`, up to 310 words. -/
theorem key_streams64 {s s' : St 64} {a a' : List (BitVec 64)} {len : ℕ} (h1 : 1 ≤ len) (h2 : len ≤ 310) (ha : len ≤ a.length)
    (ha' : len ≤ a'.length) {y y' z z' : ℕ → BitVec 64}
    (h : Delivers step64 s (.seedArr a len) .getNative y) (h' : Delivers step64 s' (.seedArr a' len) .getNative y')
    (k : Delivers step64 s (.seedArr a len) .getOther z) (k' : Delivers step64 s' (.seedArr a' len) .getOther z')
    (hne : a.take len ≠ a'.take len) : Apart 312 y y' ∧ ∀ K, ∃ k, K ≤ k ∧ z k ≠ z' k := by
  refine (streams64 (o := .seedArr a len) (o' := .seedArr a' len) trivial trivial ⟨ha, by omega⟩ ⟨ha', by omega⟩ h h' k k').2 fun e => hne ?_
  refine take_eq_of_getD ha ha' (refArray_inj (C := C64) (by decide) h1 (by show len + 2 ≤ 312; omega) fun j h3 h4 => ?_)
  have := (seqState_eq_iff.1 e).2 j h3 h4
  rwa [show (ref64 ⟨0, 0⟩ (.seedArr a len)).1.x j = refArray C64 (fun j => a.getD j 0) len j from ext_init (P := P64) _ h4,
    show (ref64 ⟨0, 0⟩ (.seedArr a' len)).1.x j = refArray C64 (fun j => a'.getD j 0) len j from ext_init (P := P64) _ h4] at this

/-- **C111.**  622 words is the limit: some two different keys of 623 words give the same stream. -/
theorem key_limit32 : ∃ a a' : List (BitVec 32), a.length = 623 ∧ a'.length = 623 ∧ a ≠ a' ∧
    ∀ (s s' : St 32) (y y' z z' : ℕ → BitVec 64),
      Delivers step32 s (.seedArr a 623) .getNative y → Delivers step32 s' (.seedArr a' 623) .getNative y' →
      Delivers step32 s (.seedArr a 623) .getOther z → Delivers step32 s' (.seedArr a' 623) .getOther z' → y = y' ∧ z = z' := by
  obtain ⟨v, v', hne, hv⟩ := refArray_not_inj (C := C32) (by decide) (by decide)
  have hlen : ∀ u : ℕ → BitVec 32, ((List.range 623).map u).length = 623 := fun u => by rw [List.length_map, List.length_range]
  have hget : ∀ (u : ℕ → BitVec 32) j, j < 623 → ((List.range 623).map u).getD j 0 = u j := fun u j hj => by
    rw [List.getD, List.getElem?_map, List.getElem?_range hj]
    rfl
  refine ⟨(List.range 623).map v, (List.range 623).map v', hlen v, hlen v', fun e => hne ?_, fun s s' y y' z z' h h' k k' => ?_⟩
  · rw [← hget v 0 (by decide), ← hget v' 0 (by decide), e]
  · refine (streams32 (o := .seedArr _ 623) (o' := .seedArr _ 623) trivial trivial ⟨(hlen v).ge, by rw [hlen]; decide⟩
      ⟨(hlen v').ge, by rw [hlen]; decide⟩ h h' k k').1 (seqState_eq_iff.2 ⟨?_, fun j h1 h2 => ?_⟩)
    · rw [show (ref32 ⟨0, 0⟩ (.seedArr ((List.range 623).map v) 623)).1.x 0 = 0x80000000 from ext_init (P := P32) _ (by decide),
        show (ref32 ⟨0, 0⟩ (.seedArr ((List.range 623).map v') 623)).1.x 0 = 0x80000000 from ext_init (P := P32) _ (by decide)]
    · have e : ∀ u : ℕ → BitVec 32, (ref32 ⟨0, 0⟩ (.seedArr ((List.range 623).map u) 623)).1.x j = refArray C32 u 623 j := fun u =>
        (ext_init (P := P32) _ h2).trans (congrFun (refArray_congr (by decide) (by decide) (by decide) (by decide) fun t => by
          rw [hget u _ (Nat.mod_lt _ (by decide))]) j)
      rw [e, e]
      exact hv j h1 h2

/-- **C111.**  For `MersenneTwister64` the limit is 310 words. -/
theorem key_limit64 : ∃ a a' : List (BitVec 64), a.length = 311 ∧ a'.length = 311 ∧ a ≠ a' ∧
    ∀ (s s' : St 64) (y y' z z' : ℕ → BitVec 64),
      Delivers step64 s (.seedArr a 311) .getNative y → Delivers step64 s' (.seedArr a' 311) .getNative y' →
      Delivers step64 s (.seedArr a 311) .getOther z → Delivers step64 s' (.seedArr a' 311) .getOther z' → y = y' ∧ z = z' := by
  obtain ⟨v, v', hne, hv⟩ := refArray_not_inj (C := C64) (by decide) (by decide)
  have hlen : ∀ u : ℕ → BitVec 64, ((List.range 311).map u).length = 311 := fun u => by rw [List.length_map, List.length_range]
  have hget : ∀ (u : ℕ → BitVec 64) j, j < 311 → ((List.range 311).map u).getD j 0 = u j := fun u j hj => by
    rw [List.getD, List.getElem?_map, List.getElem?_range hj]
    rfl
  refine ⟨(List.range 311).map v, (List.range 311).map v', hlen v, hlen v', fun e => hne ?_, fun s s' y y' z z' h h' k k' => ?_⟩
  · rw [← hget v 0 (by decide), ← hget v' 0 (by decide), e]
  · refine (streams64 (o := .seedArr _ 311) (o' := .seedArr _ 311) trivial trivial ⟨(hlen v).ge, by rw [hlen]; decide⟩
      ⟨(hlen v').ge, by rw [hlen]; decide⟩ h h' k k').1 (seqState_eq_iff.2 ⟨?_, fun j h1 h2 => ?_⟩)
    · rw [show (ref64 ⟨0, 0⟩ (.seedArr ((List.range 311).map v) 311)).1.x 0 = 1 <<< 63 from ext_init (P := P64) _ (by decide),
        show (ref64 ⟨0, 0⟩ (.seedArr ((List.range 311).map v') 311)).1.x 0 = 1 <<< 63 from ext_init (P := P64) _ (by decide)]
    · have e : ∀ u : ℕ → BitVec 64, (ref64 ⟨0, 0⟩ (.seedArr ((List.range 311).map u) 311)).1.x j = refArray C64 u 311 j := fun u =>
        (ext_init (P := P64) _ h2).trans (congrFun (refArray_congr (by decide) (by decide) (by decide) (by decide) fun t => by
          rw [hget u _ (Nat.mod_lt _ (by decide))]) j)
      rw [e, e]
      exact hv j h1 h2

theorem lengths_collide {w : ℕ} {C : Consts w} (hN : 2 ≤ C.N) (v : BitVec w) (r r' : List (BitVec w)) :
    refArray C (fun j => (v :: r).getD j 0) 1 = refArray C (fun j => (v :: (v - BitVec.ofNat w 1) :: r').getD j 0) 2 := by
  refine refArray_congr (by omega) (by omega) (by omega) hN fun t => ?_
  rw [Nat.mod_one]
  rcases Nat.mod_two_eq_zero_or_one t with ht | ht
  · rw [ht]; rfl
  · rw [ht]
    show v + 0#w = v - 1#w + 1#w
    rw [BitVec.add_zero]
    exact (BitVec.sub_add_cancel v _).symm

/-- **C111.**  Keys of different lengths may give the same stream: `{k}` and `{k, k-1}` always do. -/
theorem key_lengths_collide32 {s s' : St 32} {v : BitVec 32} {r r' : List (BitVec 32)} {y y' z z' : ℕ → BitVec 64}
    (h : Delivers step32 s (.seedArr (v :: r) 1) .getNative y) (h' : Delivers step32 s' (.seedArr (v :: (v - 1#32) :: r') 2) .getNative y')
    (k : Delivers step32 s (.seedArr (v :: r) 1) .getOther z) (k' : Delivers step32 s' (.seedArr (v :: (v - 1#32) :: r') 2) .getOther z') :
    y = y' ∧ z = z' := by
  refine (streams32 (o := .seedArr (v :: r) 1) (o' := .seedArr (v :: (v - 1#32) :: r') 2) trivial trivial ⟨by simp, by simp⟩
    ⟨by simp, by simp⟩ h h' k k').1 ?_
  show seqState P32 (ext P32 (refArray C32 (fun j => (v :: r).getD j 0) 1)) 0 =
    seqState P32 (ext P32 (refArray C32 (fun j => (v :: (v - 1#32) :: r').getD j 0) 2)) 0
  rw [lengths_collide (C := C32) (by decide) v r r']

/-- **C111.**  The same for `MersenneTwister64`. -/
theorem key_lengths_collide64 {s s' : St 64} {v : BitVec 64} {r r' : List (BitVec 64)} {y y' z z' : ℕ → BitVec 64}
    (h : Delivers step64 s (.seedArr (v :: r) 1) .getNative y) (h' : Delivers step64 s' (.seedArr (v :: (v - 1#64) :: r') 2) .getNative y')
    (k : Delivers step64 s (.seedArr (v :: r) 1) .getOther z) (k' : Delivers step64 s' (.seedArr (v :: (v - 1#64) :: r') 2) .getOther z') :
    y = y' ∧ z = z' := by
  refine (streams64 (o := .seedArr (v :: r) 1) (o' := .seedArr (v :: (v - 1#64) :: r') 2) trivial trivial ⟨by simp, by simp⟩
    ⟨by simp, by simp⟩ h h' k k').1 ?_
  show seqState P64 (ext P64 (refArray C64 (fun j => (v :: r).getD j 0) 1)) 0 =
    seqState P64 (ext P64 (refArray C64 (fun j => (v :: (v - 1#64) :: r').getD j 0) 2)) 0
  rw [lengths_collide (C := C64) (by decide) v r r']

/-- **C111.**  `seed("b")` and `seed("ba")` give the same stream: their characters and the terminating 0 are the cells. -/
theorem strings_collide {s s' : St 32} {y y' z z' : ℕ → BitVec 64}
    (h : Delivers step32 s (.seedArr ("b".toList.map (fun c => BitVec.ofNat 32 c.toNat) ++ [0]) 1) .getNative y)
    (h' : Delivers step32 s' (.seedArr ("ba".toList.map (fun c => BitVec.ofNat 32 c.toNat) ++ [0]) 2) .getNative y')
    (k : Delivers step32 s (.seedArr ("b".toList.map (fun c => BitVec.ofNat 32 c.toNat) ++ [0]) 1) .getOther z)
    (k' : Delivers step32 s' (.seedArr ("ba".toList.map (fun c => BitVec.ofNat 32 c.toNat) ++ [0]) 2) .getOther z') :
    y = y' ∧ z = z' :=
  key_lengths_collide32 (v := 98) (r := [0]) (r' := [0]) h h' k k'

/-- Two seeds, two keys and a key of two lengths. -/
example : (∃ y y', Delivers step32 fresh (.seed 5489) .getNative y ∧ Delivers step32 fresh (.seed 5490) .getNative y' ∧ Apart 624 y y') ∧
    (∃ y y', Delivers step32 fresh (.seedArr [1, 2] 2) .getNative y ∧ Delivers step32 fresh (.seedArr [1, 3] 2) .getNative y' ∧
      Apart 624 y y') ∧
    ∃ y, Delivers step32 fresh (.seedArr [5] 1) .getNative y ∧ Delivers step32 fresh (.seedArr [5, 4] 2) .getNative y := by
  refine ⟨?_, ?_, ?_⟩
  · obtain ⟨h1, h2⟩ := ref_delivers32 fresh (.seed 5489) trivial trivial
    obtain ⟨h1', h2'⟩ := ref_delivers32 fresh (.seed 5490) trivial trivial
    exact ⟨_, _, h1, h1', ((seed_streams32 h1 h1' h2 h2').2 (by decide)).1⟩
  · obtain ⟨h1, h2⟩ := ref_delivers32 fresh (.seedArr [1, 2] 2) trivial ⟨by decide, by decide⟩
    obtain ⟨h1', h2'⟩ := ref_delivers32 fresh (.seedArr [1, 3] 2) trivial ⟨by decide, by decide⟩
    exact ⟨_, _, h1, h1', (key_streams32 (by decide) (by decide) (by decide) (by decide) h1 h1' h2 h2' (by decide)).1⟩
  · obtain ⟨h1, h2⟩ := ref_delivers32 fresh (.seedArr [5] 1) trivial ⟨by decide, by decide⟩
    obtain ⟨h1', h2'⟩ := ref_delivers32 fresh (.seedArr [5, 4] 2) trivial ⟨by decide, by decide⟩
    have e := (key_lengths_collide32 (v := 5) (r := []) (r' := []) h1 h1' h2 h2').1
    refine ⟨_, h1, ?_⟩
    rw [e]
    exact h1'

end MTT.MT
