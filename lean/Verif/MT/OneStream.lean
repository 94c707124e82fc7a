import Verif.MT.SeedInjProps

/-!
# C131: all Mersenne Twister streams are one stream, and how many numbers predict the next

Nothing new is modelled: the classes of C14 and C16 (MersenneTwister.hpp, MersenneTwister64.hpp) with the streams of C78.
-/

namespace MTT.MT

open MTRec

/-! ## Helpers -/

/-- A stream with period `p` shows another one from one place below `p` only. -/
theorem shift_unique {α : Type} {y y' : ℕ → α} {p : ℕ} (hp : HasPeriod y p) {K K' : ℕ} (hK : K < p) (hK' : K' < p)
    (h : ∀ j, y (K + j) = y' j) (h' : ∀ j, y (K' + j) = y' j) : K = K' := by
  have key : ∀ {a b : ℕ}, a ≤ b → b < p → (∀ j, y (a + j) = y (b + j)) → a = b := by
    intro a b hab hb e
    have hd := (hp a (b - a)).1 fun k hk => by
      have := e (k - a)
      rw [show a + (k - a) = k by omega, show b + (k - a) = k + (b - a) by omega] at this
      exact this.symm
    have := Nat.eq_zero_of_dvd_of_lt hd (by omega)
    omega
  rcases le_total K K' with hle | hle
  · exact key hle hK' fun j => (h j).trans (h' j).symm
  · exact (key hle hK fun j => (h' j).trans (h j).symm).symm

theorem isSeq_shift {w : ℕ} {P : MTPar w} {x : ℕ → BitVec w} (hx : IsSeq P x) (t : ℕ) : IsSeq P fun k => x (t + k) := by
  intro k
  have := hx (t + k)
  dsimp only
  rw [← Nat.add_assoc, ← Nat.add_assoc, ← Nat.add_assoc]
  exact this

theorem seqState_shift' {w : ℕ} (P : MTPar w) (x : ℕ → BitVec w) (t : ℕ) : seqState P (fun k => x (t + k)) 0 = seqState P x t := by
  unfold seqState
  simp only [Nat.add_zero, Nat.zero_add, Nat.add_assoc]

/-- The words of two sequences that are not zero are one sequence, entered at different places. -/
theorem words_shift {w n : ℕ} {P : MTPar w} {x x' : ℕ → BitVec w} (hP : P.OK) (hr1 : 1 ≤ P.r) (hm2 : 2 ≤ P.m)
    (ha : P.a.getLsbD (w - 1) = true) (hn : 1 ≤ n) (hdim : Module.finrank (ZMod 2) (State P) = n)
    (hp : Primitive2 (charPoly P) n) (hx : IsSeq P x) (h0 : seqState P x 0 ≠ 0) (hx' : IsSeq P x') (h0' : seqState P x' 0 ≠ 0) :
    ∃ K, K < 2 ^ n - 1 ∧ ∀ j, x (P.n + (K + j)) = x' (P.n + j) := by
  obtain ⟨K, hK, e⟩ := orbit_surj hn hdim hp (aeval_charPoly hP hr1 hm2 ha) h0 h0'
  rw [T_pow_seqState hP hx, Nat.zero_add, ← seqState_shift'] at e
  refine ⟨K, hK, fun j => ?_⟩
  rw [← words_of_seqState hP (isSeq_shift hx K) hx' e j]
  congr 1
  omega

/-- Words that agree in `n` consecutive places agree from there on. -/
theorem words_predict {w : ℕ} {P : MTPar w} {x x' : ℕ → BitVec w} (hx : IsSeq P x) (hx' : IsSeq P x') (hP : P.OK)
    (hm2 : 2 ≤ P.m) (ha : P.a.getLsbD (w - 1) = true) {a b : ℕ} (h : ∀ j, j < P.n → x (P.n + (a + j)) = x' (P.n + (b + j))) (j : ℕ) :
    x (P.n + (a + j)) = x' (P.n + (b + j)) := by
  have e := seqState_of_words hP hm2 ha (isSeq_shift hx a) (isSeq_shift hx' b) fun k hk => by
    have := h k hk
    rw [show a + (P.n + k) = P.n + (a + k) by omega, show b + (P.n + k) = P.n + (b + k) by omega]
    exact this
  have := words_of_seqState hP (isSeq_shift hx a) (isSeq_shift hx' b) e j
  rwa [show a + (P.n + j) = P.n + (a + j) by omega, show b + (P.n + j) = P.n + (b + j) by omega] at this

/-- If `d + 1` words determine the rest, each occurrence of a `d`-tuple in a period goes on with a word of its own. -/
theorem card_next {α : Type} {y : ℕ → α} {p d : ℕ} (hp : HasPeriod y p) (hp1 : 0 < p)
    (hd : ∀ a b, (∀ j, j < d + 1 → y (a + j) = y (b + j)) → ∀ j, y (a + j) = y (b + j)) (v : ℕ → α) :
    Nat.card {u : α // ∃ a, (∀ j, j < d → y (a + j) = v j) ∧ y (a + d) = u} = occurrences y p d v := by
  have hper : ∀ a i, y (a % p + i) = y (a + i) := by
    intro a i
    have := (hp 0 (p * (a / p))).2 (Dvd.intro _ rfl) (a % p + i) (Nat.zero_le _)
    rw [← this]
    congr 1
    have := Nat.mod_add_div a p
    omega
  symm
  refine Nat.card_congr (Equiv.ofBijective (fun k => ⟨y (k.1 + d), k.1, k.2.2, rfl⟩) ⟨?_, ?_⟩)
  · rintro ⟨a, ha, ha'⟩ ⟨b, hb, hb'⟩ e
    have e1 : y (a + d) = y (b + d) := congrArg Subtype.val e
    have e2 := hd a b fun j hj => by
      rcases Nat.lt_succ_iff_lt_or_eq.1 hj with h | rfl
      · exact (ha' j h).trans (hb' j h).symm
      · exact e1
    exact Subtype.ext (shift_unique hp ha hb e2 fun j => rfl)
  · rintro ⟨u, a, ha, hu⟩
    refine ⟨⟨a % p, Nat.mod_lt _ hp1, fun j hj => (hper a j).trans (ha j hj)⟩, Subtype.ext ?_⟩
    exact (hper a d).trans hu

theorem period_pos {n : ℕ} (hn : n = 19937) : 0 < 2 ^ n - 1 := by
  have h2 : 2 ^ 2 ≤ 2 ^ n := Nat.pow_le_pow_right (by omega) (by omega)
  omega

/-- Every second place of a stream with odd period. -/
theorem half_shift {p K : ℕ} (hp : Nat.Coprime p 2) (hK : K < p) : ∃ L, L < p ∧ 2 * L ≡ K [MOD p] := by
  have hodd : ¬ 2 ∣ p := fun h => by
    have := Nat.dvd_gcd h (dvd_refl 2)
    rw [hp] at this
    omega
  rcases Nat.even_or_odd' K with ⟨c, hc | hc⟩
  · exact ⟨c, by omega, by rw [hc]⟩
  · refine ⟨(K + p) / 2, by omega, ?_⟩
    rw [show 2 * ((K + p) / 2) = K + p by omega]
    exact Nat.add_modEq_right

theorem place32 {n : ℕ} (hn : n = 19937) {s s' : St 32} {o o' : Op 32} (ho : o.IsSeed) (hv : o.Valid) (ho' : o'.IsSeed) (hv' : o'.Valid)
    {y y' z z' : ℕ → BitVec 64}
    (h : Delivers step32 s o .getNative y) (h' : Delivers step32 s' o' .getNative y')
    (k : Delivers step32 s o .getOther z) (k' : Delivers step32 s' o' .getOther z') :
    ∃ K L, K < 2 ^ n - 1 ∧ L < 2 ^ n - 1 ∧ 2 * L ≡ K [MOD 2 ^ n - 1] ∧ ∀ M, M < 2 ^ n - 1 →
      ((∀ j, y (M + j) = y' j) ↔ M = K) ∧ ((∀ j, z (M + j) = z' j) ↔ M = L) := by
  obtain ⟨y1, hy1, py⟩ := period32 hn s o ho hv
  obtain rfl := delivers_unique h hy1
  obtain ⟨z1, hz1, pz⟩ := period32_64 hn s o ho hv
  obtain rfl := delivers_unique k hz1
  obtain ⟨x, hx, h0, d1, d2⟩ := seeded32 s o ho hv
  obtain ⟨x', hx', h0', d1', d2'⟩ := seeded32 s' o' ho' hv'
  obtain rfl := delivers_unique h d1
  obtain rfl := delivers_unique h' d1'
  obtain rfl := delivers_unique k d2
  obtain rfl := delivers_unique k' d2'
  obtain ⟨K, hK, e⟩ := words_shift P32_ok (by decide) (by decide) (by decide) (by omega) (dimension.1.trans hn.symm)
    (GF2.MT32.primitive hn) hx h0 hx' h0'
  have e : ∀ j, x (624 + (K + j)) = x' (624 + j) := e
  obtain ⟨L, hL, eL⟩ := half_shift (two_pow_sub_one_odd (by omega)) hK
  have eKL : ∀ j, x (624 + (2 * L + j)) = x (624 + (K + j)) := by
    have pw := fun a N hN => (words32 hn hx h0 0 N).2 hN a (Nat.zero_le _)
    intro j
    rcases le_total K (2 * L) with hle | hle
    · have := pw (K + j) (2 * L - K) ((Nat.modEq_iff_dvd' hle).1 eL.symm)
      rw [← this]; congr 2; omega
    · have := pw (2 * L + j) (K - 2 * L) ((Nat.modEq_iff_dvd' hle).1 eL)
      rw [← this]; congr 2; omega
  have f1 : ∀ j, (temper32 (x (624 + (K + j)))).setWidth 64 = (temper32 (x' (624 + j))).setWidth 64 := fun j => by rw [e]
  have f2 : ∀ j, temper32 (x (624 + 2 * (L + j))) ++ temper32 (x (624 + (2 * (L + j) + 1))) =
      temper32 (x' (624 + 2 * j)) ++ temper32 (x' (624 + (2 * j + 1))) := fun j => by
    rw [← e, ← e, ← eKL, ← eKL]
    congr 4
    all_goals omega
  refine ⟨K, L, hK, hL, eL, fun M hM => ⟨⟨fun hh => shift_unique py hM hK hh f1, ?_⟩, ⟨fun hh => shift_unique pz hM hL hh f2, ?_⟩⟩⟩
  · rintro rfl; exact f1
  · rintro rfl; exact f2

theorem place64 {n : ℕ} (hn : n = 19937) {s s' : St 64} {o o' : Op 64} (ho : o.IsSeed) (hv : o.Valid) (ho' : o'.IsSeed) (hv' : o'.Valid)
    {y y' z z' : ℕ → BitVec 64}
    (h : Delivers step64 s o .getNative y) (h' : Delivers step64 s' o' .getNative y')
    (k : Delivers step64 s o .getOther z) (k' : Delivers step64 s' o' .getOther z') :
    ∃ K, K < 2 ^ n - 1 ∧ ∀ M, M < 2 ^ n - 1 →
      ((∀ j, y (M + j) = y' j) ↔ M = K) ∧ ((∀ j, z (M + j) = z' j) ↔ M = K) := by
  obtain ⟨⟨y1, hy1, py⟩, z1, hz1, pz⟩ := period64 hn s o ho hv
  obtain rfl := delivers_unique h hy1
  obtain rfl := delivers_unique k hz1
  obtain ⟨x, hx, h0, d1, d2⟩ := seeded64 s o ho hv
  obtain ⟨x', hx', h0', d1', d2'⟩ := seeded64 s' o' ho' hv'
  obtain rfl := delivers_unique h d1
  obtain rfl := delivers_unique h' d1'
  obtain rfl := delivers_unique k d2
  obtain rfl := delivers_unique k' d2'
  obtain ⟨K, hK, e⟩ := words_shift P64_ok (by decide) (by decide) (by decide) (by omega) (dimension.2.trans hn.symm)
    (GF2.MT64.primitive hn) hx h0 hx' h0'
  have e : ∀ j, x (312 + (K + j)) = x' (312 + j) := e
  have f1 : ∀ j, temper64 (x (312 + (K + j))) = temper64 (x' (312 + j)) := fun j => by rw [e]
  have f2 : ∀ j, ((temper64 (x (312 + (K + j)))).extractLsb' 32 32).setWidth 64 =
      ((temper64 (x' (312 + j))).extractLsb' 32 32).setWidth 64 := fun j => by rw [e]
  refine ⟨K, hK, fun M hM => ⟨⟨fun hh => shift_unique py hM hK hh f1, ?_⟩, ⟨fun hh => shift_unique pz hM hK hh f2, ?_⟩⟩⟩
  · rintro rfl; exact f1
  · rintro rfl; exact f2

/-! ## C131 -/

/-- **C131.**  Any two seeded `MersenneTwister` objects return the same stream, entered at places that differ by exactly one number
below the period: `K` for `getUint32`, and for `getUint64` the number `L` with `2 L ≡ K`. -/
theorem one_stream32 {s s' : St 32} {o o' : Op 32} (ho : o.IsSeed) (hv : o.Valid) (ho' : o'.IsSeed) (hv' : o'.Valid)
    {y y' z z' : ℕ → BitVec 64}
    (h : Delivers step32 s o .getNative y) (h' : Delivers step32 s' o' .getNative y')
    (k : Delivers step32 s o .getOther z) (k' : Delivers step32 s' o' .getOther z') :
    ∃ K L, K < 2 ^ 19937 - 1 ∧ L < 2 ^ 19937 - 1 ∧ 2 * L ≡ K [MOD 2 ^ 19937 - 1] ∧ ∀ M, M < 2 ^ 19937 - 1 →
      ((∀ j, y (M + j) = y' j) ↔ M = K) ∧ ((∀ j, z (M + j) = z' j) ↔ M = L) := place32 rfl ho hv ho' hv' h h' k k'

/-- **C131.**  The same for `MersenneTwister64`, with one number for `getUint64` and `getUint32`. -/
theorem one_stream64 {s s' : St 64} {o o' : Op 64} (ho : o.IsSeed) (hv : o.Valid) (ho' : o'.IsSeed) (hv' : o'.Valid)
    {y y' z z' : ℕ → BitVec 64}
    (h : Delivers step64 s o .getNative y) (h' : Delivers step64 s' o' .getNative y')
    (k : Delivers step64 s o .getOther z) (k' : Delivers step64 s' o' .getOther z') :
    ∃ K, K < 2 ^ 19937 - 1 ∧ ∀ M, M < 2 ^ 19937 - 1 →
      ((∀ j, y (M + j) = y' j) ↔ M = K) ∧ ((∀ j, z (M + j) = z' j) ↔ M = K) := place64 rfl ho hv ho' hv' h h' k k'

/-- **C131.**  624 consecutive results of `getUint32` of `MersenneTwister` determine all later ones, whatever the two objects and
their seeds, and wherever the results are taken. -/
theorem predict32 {s s' : St 32} {o o' : Op 32} (ho : o.IsSeed) (hv : o.Valid) (ho' : o'.IsSeed) (hv' : o'.Valid)
    {y y' : ℕ → BitVec 64} (h : Delivers step32 s o .getNative y) (h' : Delivers step32 s' o' .getNative y') {a b : ℕ}
    (hab : ∀ j, j < 624 → y (a + j) = y' (b + j)) (j : ℕ) : y (a + j) = y' (b + j) := by
  obtain ⟨x, hx, h0, d1, -⟩ := seeded32 s o ho hv
  obtain ⟨x', hx', h0', d1', -⟩ := seeded32 s' o' ho' hv'
  obtain rfl := delivers_unique h d1
  obtain rfl := delivers_unique h' d1'
  dsimp only at hab ⊢
  simp only [setWidth_inj, temper32_injective.eq_iff] at hab ⊢
  exact words_predict hx hx' P32_ok (by decide) (by decide) hab j

/-- **C131.**  312 consecutive results of `getUint64` of `MersenneTwister64` determine all later ones. -/
theorem predict64 {s s' : St 64} {o o' : Op 64} (ho : o.IsSeed) (hv : o.Valid) (ho' : o'.IsSeed) (hv' : o'.Valid)
    {y y' : ℕ → BitVec 64} (h : Delivers step64 s o .getNative y) (h' : Delivers step64 s' o' .getNative y') {a b : ℕ}
    (hab : ∀ j, j < 312 → y (a + j) = y' (b + j)) (j : ℕ) : y (a + j) = y' (b + j) := by
  obtain ⟨x, hx, h0, d1, -⟩ := seeded64 s o ho hv
  obtain ⟨x', hx', h0', d1', -⟩ := seeded64 s' o' ho' hv'
  obtain rfl := delivers_unique h d1
  obtain rfl := delivers_unique h' d1'
  dsimp only at hab ⊢
  simp only [temper64_injective.eq_iff] at hab ⊢
  exact words_predict hx hx' P64_ok (by decide) (by decide) hab j

/-- **C131.**  623 results leave exactly two possible next words, if they are not all zero, and one otherwise. -/
theorem next_words32 (s : St 32) (o : Op 32) (ho : o.IsSeed) (hv : o.Valid) :
    ∃ y : ℕ → BitVec 32, Delivers step32 s o .getNative (fun k => (y k).setWidth 64) ∧ ∀ v : ℕ → BitVec 32,
      ((∃ j, j < 623 ∧ v j ≠ 0) → Nat.card {u // ∃ a, (∀ j, j < 623 → y (a + j) = v j) ∧ y (a + 623) = u} = 2) ∧
      ((∀ j, j < 623 → v j = 0) → Nat.card {u // ∃ a, (∀ j, j < 623 → y (a + j) = v j) ∧ y (a + 623) = u} = 1) := by
  obtain ⟨n, hn⟩ : ∃ n, n = 19937 := ⟨_, rfl⟩
  obtain ⟨y, hy, c⟩ := count32 hn s o ho hv
  refine ⟨y, hy, fun v => ?_⟩
  obtain ⟨y1, hy1, py⟩ := period32 hn s o ho hv
  obtain rfl := delivers_unique hy hy1
  have py : HasPeriod y (2 ^ n - 1) := fun K N => by
    rw [← py K N]
    exact forall_congr' fun k => imp_congr_right fun _ => setWidth_inj.symm
  rw [card_next py (period_pos hn) fun a b hab j => setWidth_inj.1
    (predict32 ho hv ho hv hy hy (a := a) (b := b) (fun j hj => setWidth_inj.2 (hab j hj)) j)]
  have := c 0 v
  simp only [Nat.zero_add] at this
  exact this

/-- **C131.**  311 results of `MersenneTwister64::getUint64` leave exactly `2^33` possible next words, one less if they are all zero. -/
theorem next_words64 (s : St 64) (o : Op 64) (ho : o.IsSeed) (hv : o.Valid) :
    ∃ y : ℕ → BitVec 64, Delivers step64 s o .getNative y ∧ ∀ v : ℕ → BitVec 64,
      ((∃ j, j < 311 ∧ v j ≠ 0) → Nat.card {u // ∃ a, (∀ j, j < 311 → y (a + j) = v j) ∧ y (a + 311) = u} = 2 ^ 33) ∧
      ((∀ j, j < 311 → v j = 0) → Nat.card {u // ∃ a, (∀ j, j < 311 → y (a + j) = v j) ∧ y (a + 311) = u} = 2 ^ 33 - 1) := by
  obtain ⟨n, hn⟩ : ∃ n, n = 19937 := ⟨_, rfl⟩
  obtain ⟨y, hy, c⟩ := count64 hn s o ho hv
  refine ⟨y, hy, fun v => ?_⟩
  obtain ⟨⟨y1, hy1, py⟩, -⟩ := period64 hn s o ho hv
  obtain rfl := delivers_unique hy hy1
  rw [card_next py (period_pos hn) fun a b hab j => predict64 ho hv ho hv hy hy (a := a) (b := b) hab j]
  have := c 0 v
  simp only [Nat.zero_add] at this
  exact this

/-- The hypotheses can be met: the default seed and an array key. -/
example (s s' : St 32) : ∃ y y' K, Delivers step32 s (.seed 5489) .getNative y ∧
    Delivers step32 s' (.seedArr [0x123, 0x234, 0x345, 0x456] 4) .getNative y' ∧ K < 2 ^ 19937 - 1 ∧ ∀ j, y (K + j) = y' j := by
  have hv : Op.Valid (w := 32) (.seedArr [0x123, 0x234, 0x345, 0x456] 4) := ⟨by decide, by decide⟩
  have hs : Op.IsSeed (w := 32) (.seedArr [0x123, 0x234, 0x345, 0x456] 4) := trivial
  obtain ⟨y, hy, -⟩ := mt19937_period s (.seed 5489) trivial trivial
  obtain ⟨z, hz, -⟩ := mt19937_period_getUint64 s (.seed 5489) trivial trivial
  obtain ⟨y', hy', -⟩ := mt19937_period s' _ hs hv
  obtain ⟨z', hz', -⟩ := mt19937_period_getUint64 s' _ hs hv
  obtain ⟨K, L, hK, -, -, h⟩ := one_stream32 (o := .seed 5489) trivial trivial hs hv hy hy' hz hz'
  exact ⟨y, y', K, hy, hy', hK, ((h K hK).1).2 rfl⟩

end MTT.MT
