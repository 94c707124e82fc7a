import Verif.MT.Orbit
import Verif.MT.Reference
import Verif.GF2.MTPrim
import Verif.Spec.Stream

/-!
# C78, C79: exact period and equidistribution of the Mersenne Twister classes
-/

namespace MTT.MT

open MTRec

/-- After the call `o` on the object `s`, `n` calls of `g` return `y 0, …, y (n-1)`, for every `n` (the seeding
call itself is logged as `0`). -/
def Delivers {w : ℕ} (step : St w → Op w → Option (St w × BitVec 64)) (s : St w) (o g : Op w)
    (y : ℕ → BitVec 64) : Prop :=
  ∀ n, ∃ s', run step s (o :: List.replicate n g) = some (s', 0 :: (List.range n).map y)

/-! ## Helpers -/

theorem valid_replicate {w : ℕ} {o g : Op w} (hv : o.Valid) (hg : g.Valid) (n : ℕ) :
    ∀ o' ∈ o :: List.replicate n g, o'.Valid := by
  intro o' ho
  rcases List.mem_cons.1 ho with rfl | ho
  · exact hv
  · rw [(List.mem_replicate.1 ho).2]; exact hg

theorem refRun_other32 (q : Ref 32) (n : ℕ) : refRun ref32 q (List.replicate n .getOther) =
    (List.range n).map fun k => q.out32 (2 * k) ++ q.out32 (2 * k + 1) := by
  induction n generalizing q with
  | zero => rfl
  | succ n ih =>
    rw [List.replicate_succ, refRun, ih, List.range_succ_eq_map, List.map_cons, List.map_map]
    have e : ∀ i, (ref32 q .getOther).1.out32 i = q.out32 (i + 2) := fun i => by
      unfold Ref.out32
      simp only [ref32]
      rw [show q.t + 2 + i = q.t + (i + 2) by omega]
    have h2 : (ref32 q .getOther).2 = q.out32 (2 * 0) ++ q.out32 (2 * 0 + 1) := rfl
    rw [h2]
    refine congrArg _ (List.map_congr_left fun k _ => ?_)
    simp only [Function.comp, e]
    rw [show 2 * (k + 1) = 2 * k + 2 by omega, show 2 * k + 1 + 2 = 2 * k + 2 + 1 by omega]

theorem refRun_other64 (q : Ref 64) (n : ℕ) : refRun ref64 q (List.replicate n .getOther) =
    (List.range n).map fun k => ((temper64 (q.x (312 + (q.t + k)))).extractLsb' 32 32).setWidth 64 := by
  induction n generalizing q with
  | zero => rfl
  | succ n ih =>
    rw [List.replicate_succ, refRun, ih, List.range_succ_eq_map, List.map_cons, List.map_map]
    congr 1
    apply List.map_congr_left
    intro k _
    simp only [ref64, Function.comp]
    rw [show q.t + 1 + k = q.t + (k + 1) by omega]

/-- What a seeding call selects. -/
theorem seeded32 (s : St 32) (o : Op 32) (ho : o.IsSeed) (hv : o.Valid) :
    ∃ x, IsSeq P32 x ∧ seqState P32 x 0 ≠ 0 ∧
      Delivers step32 s o .getNative (fun k => (temper32 (x (624 + k))).setWidth 64) ∧
      Delivers step32 s o .getOther (fun k => temper32 (x (624 + 2 * k)) ++ temper32 (x (624 + (2 * k + 1)))) := by
  refine ⟨(ref32 ⟨0, 0⟩ o).1.x, ?_, ?_, fun n => ?_, fun n => ?_⟩
  · cases o with
    | seed v => exact ext_isSeq P32_ok _
    | seedArr cells len => exact ext_isSeq P32_ok _
    | getNative => exact ho.elim
    | getOther => exact ho.elim
  · cases o with
    | seed v => exact (seed32_not_zero (v.setWidth 32) _ (ext_isSeq P32_ok _) fun j hj => ext_init (P := P32) _ hj).1
    | seedArr cells len =>
      exact (seedArr32_not_zero _ len _ (ext_isSeq P32_ok _) fun j hj => ext_init (P := P32) _ hj).1
    | getNative => exact ho.elim
    | getOther => exact ho.elim
  · obtain ⟨s', h⟩ := history32 s o _ ho (valid_replicate hv (g := .getNative) trivial n)
    refine ⟨s', h.trans ?_⟩
    rw [refRun, refRun_native32]
    cases o with
    | seed v => simp only [ref32, Nat.zero_add]
    | seedArr cells len => simp only [ref32, Nat.zero_add]
    | getNative => exact ho.elim
    | getOther => exact ho.elim
  · obtain ⟨s', h⟩ := history32 s o _ ho (valid_replicate hv (g := .getOther) trivial n)
    refine ⟨s', h.trans ?_⟩
    rw [refRun, refRun_other32]
    cases o with
    | seed v => simp only [ref32, Ref.out32, Nat.zero_add]
    | seedArr cells len => simp only [ref32, Ref.out32, Nat.zero_add]
    | getNative => exact ho.elim
    | getOther => exact ho.elim

theorem seeded64 (s : St 64) (o : Op 64) (ho : o.IsSeed) (hv : o.Valid) :
    ∃ x, IsSeq P64 x ∧ seqState P64 x 0 ≠ 0 ∧
      Delivers step64 s o .getNative (fun k => temper64 (x (312 + k))) ∧
      Delivers step64 s o .getOther (fun k => ((temper64 (x (312 + k))).extractLsb' 32 32).setWidth 64) := by
  refine ⟨(ref64 ⟨0, 0⟩ o).1.x, ?_, ?_, fun n => ?_, fun n => ?_⟩
  · cases o with
    | seed v => exact ext_isSeq P64_ok _
    | seedArr cells len => exact ext_isSeq P64_ok _
    | getNative => exact ho.elim
    | getOther => exact ho.elim
  · cases o with
    | seed v => exact (seed64_not_zero v _ (ext_isSeq P64_ok _) fun j hj => ext_init (P := P64) _ hj).1
    | seedArr cells len =>
      exact (seedArr64_not_zero _ len _ (ext_isSeq P64_ok _) fun j hj => ext_init (P := P64) _ hj).1
    | getNative => exact ho.elim
    | getOther => exact ho.elim
  · obtain ⟨s', h⟩ := history64 s o _ ho (valid_replicate hv (g := .getNative) trivial n)
    refine ⟨s', h.trans ?_⟩
    rw [refRun, refRun_native64]
    cases o with
    | seed v => simp only [ref64, Nat.zero_add]
    | seedArr cells len => simp only [ref64, Nat.zero_add]
    | getNative => exact ho.elim
    | getOther => exact ho.elim
  · obtain ⟨s', h⟩ := history64 s o _ ho (valid_replicate hv (g := .getOther) trivial n)
    refine ⟨s', h.trans ?_⟩
    rw [refRun, refRun_other64]
    cases o with
    | seed v => simp only [ref64, Nat.zero_add]
    | seedArr cells len => simp only [ref64, Nat.zero_add]
    | getNative => exact ho.elim
    | getOther => exact ho.elim

theorem setWidth_inj {a b : BitVec 32} : a.setWidth 64 = b.setWidth 64 ↔ a = b := by
  constructor
  · intro h
    apply BitVec.eq_of_toNat_eq
    have := congrArg BitVec.toNat h
    rwa [BitVec.toNat_setWidth, BitVec.toNat_setWidth, Nat.mod_eq_of_lt (by have := a.isLt; omega),
      Nat.mod_eq_of_lt (by have := b.isLt; omega)] at this
  · rintro rfl; rfl

theorem append_inj {a b c d : BitVec 32} : a ++ b = c ++ d ↔ a = c ∧ b = d := by
  constructor
  · intro h
    have hb : ∀ i, (a ++ b).getLsbD i = (c ++ d).getLsbD i := fun i => by rw [h]
    constructor
    · apply BitVec.eq_of_getLsbD_eq
      intro i hi
      have := hb (i + 32)
      rwa [BitVec.getLsbD_append, BitVec.getLsbD_append, if_neg (by omega), if_neg (by omega),
        Nat.add_sub_cancel] at this
    · apply BitVec.eq_of_getLsbD_eq
      intro i hi
      have := hb i
      rwa [BitVec.getLsbD_append, BitVec.getLsbD_append, if_pos hi, if_pos hi] at this
  · rintro ⟨rfl, rfl⟩; rfl

theorem id_ne_zero {w : ℕ} (hw : 1 ≤ w) : (LinearMap.id : Wd w →ₗ[ZMod 2] Wd w) ≠ 0 := by
  intro h
  have := congrArg (fun q : Wd w => q.val.toNat) (LinearMap.congr_fun h (Wd.of 1))
  have h2 : (1 : BitVec w).toNat = (0 : BitVec w).toNat := this
  have h3 : 1 < 2 ^ w := Nat.one_lt_two_pow (by omega)
  simp [Nat.mod_eq_of_lt h3] at h2

/-- Upper half of the tempered word as a linear map. -/
def upperHalf : Wd 64 →ₗ[ZMod 2] Wd 32 :=
  linOf (fun v => Wd.of ((temper64 v.val).extractLsb' 32 32)) (fun u v => by
    show Wd.of ((temper64 (u.val ^^^ v.val)).extractLsb' 32 32) = _
    rw [temper64_linear, ← Wd.of_xor]
    congr 1
    apply BitVec.eq_of_getLsbD_eq
    intro i hi
    simp [hi])

theorem upperHalf_ne_zero : upperHalf ≠ 0 := by
  intro h
  obtain ⟨v, hv⟩ := temper64_bijective.2 (1#64 <<< 32)
  have := congrArg Wd.val (LinearMap.congr_fun h (Wd.of v))
  have h2 : (temper64 v).extractLsb' 32 32 = 0 := this
  rw [hv] at h2
  revert h2
  decide

/-- Word sequences of the 32-bit recurrence have period `2^n-1`, `n = 19937`. -/
theorem words32 {n : ℕ} (hn : n = 19937) {x : ℕ → BitVec 32} (hx : IsSeq P32 x) (h0 : seqState P32 x 0 ≠ 0)
    (K N : ℕ) : (∀ k, K ≤ k → x (624 + (k + N)) = x (624 + k)) ↔ 2 ^ n - 1 ∣ N :=
  seq_period P32_ok (by decide) (by decide) (by decide) (by omega) (dimension.1.trans hn.symm)
    (GF2.MT32.primitive hn) hx h0 (id_ne_zero (by decide)) K N

theorem two_pow_sub_one_odd {n : ℕ} (hn : 1 ≤ n) : Nat.Coprime (2 ^ n - 1) 2 := by
  have h : ¬ 2 ∣ 2 ^ n - 1 := by
    obtain ⟨m, rfl⟩ : ∃ m, n = m + 1 := ⟨n - 1, by omega⟩
    have := Nat.one_le_two_pow (n := m)
    rw [pow_succ]
    omega
  exact ((Nat.Prime.coprime_iff_not_dvd Nat.prime_two).2 h).symm

theorem period32 {n : ℕ} (hn : n = 19937) (s : St 32) (o : Op 32) (ho : o.IsSeed) (hv : o.Valid) :
    ∃ y, Delivers step32 s o .getNative y ∧ HasPeriod y (2 ^ n - 1) := by
  obtain ⟨x, hx, h0, h1, -⟩ := seeded32 s o ho hv
  refine ⟨_, h1, fun K N => ?_⟩
  rw [← words32 hn hx h0 K N]
  exact forall_congr' fun k => imp_congr_right fun _ => by rw [setWidth_inj, temper32_injective.eq_iff]

theorem period32_64 {n : ℕ} (hn : n = 19937) (s : St 32) (o : Op 32) (ho : o.IsSeed) (hv : o.Valid) :
    ∃ y, Delivers step32 s o .getOther y ∧ HasPeriod y (2 ^ n - 1) := by
  obtain ⟨x, hx, h0, -, h1⟩ := seeded32 s o ho hv
  refine ⟨_, h1, fun K N => ?_⟩
  have hc : 2 ^ n - 1 ∣ N ↔ 2 ^ n - 1 ∣ 2 * N :=
    ((two_pow_sub_one_odd (by omega)).dvd_mul_left).symm
  rw [hc, ← words32 hn hx h0 (2 * K) (2 * N)]
  simp only [append_inj, temper32_injective.eq_iff]
  constructor
  · intro h k hk
    obtain ⟨j, hj⟩ : ∃ j, k = 2 * j ∨ k = 2 * j + 1 := ⟨k / 2, by omega⟩
    have := h j (by omega)
    rcases hj with rfl | rfl
    · rw [← Nat.mul_add]; exact this.1
    · rw [show 2 * j + 1 + 2 * N = 2 * (j + N) + 1 by omega]; exact this.2
  · intro h k hk
    constructor
    · rw [Nat.mul_add]; exact h _ (by omega)
    · rw [show 2 * (k + N) + 1 = 2 * k + 1 + 2 * N by omega]; exact h _ (by omega)

theorem period64 {n : ℕ} (hn : n = 19937) (s : St 64) (o : Op 64) (ho : o.IsSeed) (hv : o.Valid) :
    (∃ y, Delivers step64 s o .getNative y ∧ HasPeriod y (2 ^ n - 1)) ∧
    ∃ y, Delivers step64 s o .getOther y ∧ HasPeriod y (2 ^ n - 1) := by
  obtain ⟨x, hx, h0, h1, h2⟩ := seeded64 s o ho hv
  refine ⟨⟨_, h1, fun K N => ?_⟩, _, h2, fun K N => ?_⟩
  · rw [← seq_period P64_ok (by decide) (by decide) (by decide) (by omega) (dimension.2.trans hn.symm)
      (GF2.MT64.primitive hn) hx h0 (id_ne_zero (w := 64) (by decide)) K N]
    exact forall_congr' fun k => imp_congr_right fun _ => temper64_injective.eq_iff
  · rw [← seq_period P64_ok (by decide) (by decide) (by decide) (by omega) (dimension.2.trans hn.symm)
      (GF2.MT64.primitive hn) hx h0 upperHalf_ne_zero K N]
    exact forall_congr' fun k => imp_congr_right fun _ => setWidth_inj

theorem count32 {n : ℕ} (hn : n = 19937) (s : St 32) (o : Op 32) (ho : o.IsSeed) (hv : o.Valid) :
    ∃ y : ℕ → BitVec 32, Delivers step32 s o .getNative (fun k => (y k).setWidth 64) ∧ ∀ K v,
      ((∃ j, j < 623 ∧ v j ≠ 0) → occurrences (fun k => y (K + k)) (2 ^ n - 1) 623 v = 2 ^ 1) ∧
      ((∀ j, j < 623 → v j = 0) → occurrences (fun k => y (K + k)) (2 ^ n - 1) 623 v = 2 ^ 1 - 1) := by
  obtain ⟨x, hx, h0, h1, -⟩ := seeded32 s o ho hv
  refine ⟨_, h1, fun K v => ?_⟩
  obtain ⟨u, hu⟩ : ∃ u : ℕ → BitVec 32, ∀ j, temper32 (u j) = v j :=
    ⟨fun j => (temper32_bijective.2 (v j)).choose, fun j => (temper32_bijective.2 (v j)).choose_spec⟩
  have key := seq_count P32_ok (by decide) (by decide) (by decide) (by omega) (dimension.1.trans hn.symm)
    (GF2.MT32.primitive hn) hx h0 (623 + K) u
  have e : occurrences (fun k => temper32 (x (624 + (K + k)))) (2 ^ n - 1) 623 v =
      Nat.card {k : ℕ // k < 2 ^ n - 1 ∧ ∀ j, j < P32.n - 1 → x (623 + K + 1 + (k + j)) = u j} := by
    refine Nat.card_congr (Equiv.subtypeEquivRight fun k => and_congr_right fun _ =>
      forall_congr' fun j => imp_congr_right fun _ => ?_)
    rw [← hu j, temper32_injective.eq_iff, show 624 + (K + (k + j)) = 623 + K + 1 + (k + j) by omega]
  have hz : ∀ j, u j = 0 ↔ v j = 0 := fun j => by
    rw [← hu j, ← temper32_injective.eq_iff, temper32_zero]
  rw [e]
  refine ⟨fun ⟨j, hj, h⟩ => key.1 ⟨j, hj, fun h' => h ((hz j).1 h')⟩, fun h => key.2 fun j hj => (hz j).2 (h j hj)⟩

theorem count64 {n : ℕ} (hn : n = 19937) (s : St 64) (o : Op 64) (ho : o.IsSeed) (hv : o.Valid) :
    ∃ y : ℕ → BitVec 64, Delivers step64 s o .getNative y ∧ ∀ K v,
      ((∃ j, j < 311 ∧ v j ≠ 0) → occurrences (fun k => y (K + k)) (2 ^ n - 1) 311 v = 2 ^ 33) ∧
      ((∀ j, j < 311 → v j = 0) → occurrences (fun k => y (K + k)) (2 ^ n - 1) 311 v = 2 ^ 33 - 1) := by
  obtain ⟨x, hx, h0, h1, -⟩ := seeded64 s o ho hv
  refine ⟨_, h1, fun K v => ?_⟩
  obtain ⟨u, hu⟩ : ∃ u : ℕ → BitVec 64, ∀ j, temper64 (u j) = v j :=
    ⟨fun j => (temper64_bijective.2 (v j)).choose, fun j => (temper64_bijective.2 (v j)).choose_spec⟩
  have key := seq_count P64_ok (by decide) (by decide) (by decide) (by omega) (dimension.2.trans hn.symm)
    (GF2.MT64.primitive hn) hx h0 (311 + K) u
  have e : occurrences (fun k => temper64 (x (312 + (K + k)))) (2 ^ n - 1) 311 v =
      Nat.card {k : ℕ // k < 2 ^ n - 1 ∧ ∀ j, j < P64.n - 1 → x (311 + K + 1 + (k + j)) = u j} := by
    refine Nat.card_congr (Equiv.subtypeEquivRight fun k => and_congr_right fun _ =>
      forall_congr' fun j => imp_congr_right fun _ => ?_)
    rw [← hu j, temper64_injective.eq_iff, show 312 + (K + (k + j)) = 311 + K + 1 + (k + j) by omega]
  have hz : ∀ j, u j = 0 ↔ v j = 0 := fun j => by
    rw [← hu j, ← temper64_injective.eq_iff, temper64_zero]
  rw [e]
  refine ⟨fun ⟨j, hj, h⟩ => key.1 ⟨j, hj, fun h' => h ((hz j).1 h')⟩, fun h => key.2 fun j hj => (hz j).2 (h j hj)⟩

/-! ## C78 -/

/-- **C78.**  Whatever the object contained, after any legal seeding call the stream of `getUint32` results has
least period exactly `2^19937-1`, from the first output on. -/
theorem mt19937_period (s : St 32) (o : Op 32) (ho : o.IsSeed) (hv : o.Valid) :
    ∃ y, Delivers step32 s o .getNative y ∧ HasPeriod y (2 ^ 19937 - 1) := period32 rfl s o ho hv

/-- **C78**, `getUint64` of the 32-bit class: also `2^19937-1` (pairs, and the period is odd). -/
theorem mt19937_period_getUint64 (s : St 32) (o : Op 32) (ho : o.IsSeed) (hv : o.Valid) :
    ∃ y, Delivers step32 s o .getOther y ∧ HasPeriod y (2 ^ 19937 - 1) := period32_64 rfl s o ho hv

/-- **C78**, 64-bit class, `getUint64` and `getUint32`. -/
theorem mt19937_64_period (s : St 64) (o : Op 64) (ho : o.IsSeed) (hv : o.Valid) :
    (∃ y, Delivers step64 s o .getNative y ∧ HasPeriod y (2 ^ 19937 - 1)) ∧
    ∃ y, Delivers step64 s o .getOther y ∧ HasPeriod y (2 ^ 19937 - 1) := period64 rfl s o ho hv

/-! ## C79 -/

/-- **C79.**  Over any full period of `getUint32` results after any legal seeding call, every 623-tuple of
32-bit words occurs exactly twice, except the zero tuple, which occurs once. -/
theorem mt19937_equidistributed (s : St 32) (o : Op 32) (ho : o.IsSeed) (hv : o.Valid) :
    ∃ y : ℕ → BitVec 32, Delivers step32 s o .getNative (fun k => (y k).setWidth 64) ∧ ∀ K v,
      ((∃ j, j < 623 ∧ v j ≠ 0) → occurrences (fun k => y (K + k)) (2 ^ 19937 - 1) 623 v = 2) ∧
      ((∀ j, j < 623 → v j = 0) → occurrences (fun k => y (K + k)) (2 ^ 19937 - 1) 623 v = 1) :=
  count32 rfl s o ho hv

/-- **C79**, 64-bit class: every 311-tuple `2^33` times, the zero tuple once less. -/
theorem mt19937_64_equidistributed (s : St 64) (o : Op 64) (ho : o.IsSeed) (hv : o.Valid) :
    ∃ y : ℕ → BitVec 64, Delivers step64 s o .getNative y ∧ ∀ K v,
      ((∃ j, j < 311 ∧ v j ≠ 0) → occurrences (fun k => y (K + k)) (2 ^ 19937 - 1) 311 v = 2 ^ 33) ∧
      ((∀ j, j < 311 → v j = 0) → occurrences (fun k => y (K + k)) (2 ^ 19937 - 1) 311 v = 2 ^ 33 - 1) :=
  count64 rfl s o ho hv

-- the default-constructed objects (uninitialised array, then `seed(5489)`), and a two-word key
example : ∃ y, Delivers step32 fresh (.seed 5489) .getNative y ∧ HasPeriod y (2 ^ 19937 - 1) :=
  mt19937_period _ _ trivial trivial

example : ∃ y, Delivers step32 fresh (.seedArr [0x123, 0x234] 2) .getOther y ∧ HasPeriod y (2 ^ 19937 - 1) :=
  mt19937_period_getUint64 _ _ trivial ⟨by decide, by decide⟩

example : ∃ y : ℕ → BitVec 64, Delivers step64 fresh (.seed 5489) .getNative y ∧ ∀ K v, v 0 = 1 →
    occurrences (fun k => y (K + k)) (2 ^ 19937 - 1) 311 v = 2 ^ 33 := by
  obtain ⟨y, h, e⟩ := mt19937_64_equidistributed fresh (.seed 5489) trivial trivial
  exact ⟨y, h, fun K v hv => (e K v).1 ⟨0, by decide, by rw [hv]; decide⟩⟩

end MTT.MT
