import Verif.MT.OneStream

/-!
# C132: the numbers of the other width are equally distributed as well

`MersenneTwister::getUint64` joins two 32-bit words, `MersenneTwister64::getUint32` keeps the upper half of a 64-bit word.
Nothing new is modelled (C14, C16, C79).
-/

namespace MTT.MT

open MTRec

/-! ## Helpers -/

theorem card_bitVec (w : ℕ) : Nat.card (BitVec w) = 2 ^ w := by
  rw [Nat.card_congr (⟨fun x => x.toFin, BitVec.ofFin, fun _ => rfl, fun _ => rfl⟩ : BitVec w ≃ Fin (2 ^ w)), Nat.card_eq_fintype_card,
    Fintype.card_fin]

open Classical in
/-- If every `d`-tuple but the zero tuple begins `m` times below `p`, and that one once less, the number of times with any property of the
tuple is `m` times the number of tuples with it, less one if the zero tuple has it. -/
theorem tuples_pred {w d m p : ℕ} (hm : 1 ≤ m) {y : ℕ → BitVec w}
    (h1 : ∀ v : ℕ → BitVec w, (∃ j, j < d ∧ v j ≠ 0) → occurrences y p d v = m)
    (h2 : ∀ v : ℕ → BitVec w, (∀ j, j < d → v j = 0) → occurrences y p d v = m - 1) (P : (Fin d → BitVec w) → Prop) :
    Nat.card {k : ℕ // k < p ∧ P fun j => y (k + j)} = m * Nat.card {v : Fin d → BitVec w // P v} - if P 0 then 1 else 0 := by
  let eB : BitVec w ≃ Fin (2 ^ w) := ⟨fun x => x.toFin, BitVec.ofFin, fun _ => rfl, fun _ => rfl⟩
  let _ : Fintype (BitVec w) := Fintype.ofEquiv _ eB.symm
  let t : ℕ → Fin d → BitVec w := fun k j => y (k + j)
  have ho : ∀ v : Fin d → BitVec w, ((Finset.range p).filter (fun k => t k = v)).card = if v = 0 then m - 1 else m := by
    intro v
    have e : occurrences y p d (fun j => if h : j < d then v ⟨j, h⟩ else 0) = ((Finset.range p).filter (fun k => t k = v)).card := by
      unfold occurrences
      refine Nat.subtype_card _ fun k => ?_
      rw [Finset.mem_filter, Finset.mem_range]
      refine and_congr_right fun _ => ⟨fun h j hj => ?_, fun h => funext fun j => ?_⟩
      · dsimp only; rw [dif_pos hj]; exact congrFun h ⟨j, hj⟩
      · have := h j.1 j.2
        dsimp only at this
        rw [dif_pos j.2] at this
        exact this
    rw [← e]
    by_cases hv : v = 0
    · rw [if_pos hv]
      refine h2 _ fun j hj => ?_
      rw [dif_pos hj, hv]; rfl
    · rw [if_neg hv]
      refine h1 _ ?_
      by_contra hc
      push Not at hc
      refine hv (funext fun j => ?_)
      have := hc j.1 j.2
      rwa [dif_pos j.2] at this
  have hc : Nat.card {k : ℕ // k < p ∧ P fun j => y (k + j)} = ((Finset.range p).filter (fun k => P (t k))).card :=
    Nat.subtype_card _ fun k => by
      rw [Finset.mem_filter, Finset.mem_range]
  have hT : (Finset.univ.filter (fun v : Fin d → BitVec w => P v)).card = Nat.card {v : Fin d → BitVec w // P v} :=
    (Nat.subtype_card (p := fun v : Fin d → BitVec w => P v) _ (by simp)).symm
  have hmap : ∀ k ∈ (Finset.range p).filter (fun k => P (t k)), t k ∈ Finset.univ.filter (fun v : Fin d → BitVec w => P v) := by
    intro k hk
    simpa using (Finset.mem_filter.1 hk).2
  rw [hc, Finset.card_eq_sum_card_fiberwise hmap]
  have hs : ∀ v ∈ Finset.univ.filter (fun v : Fin d → BitVec w => P v),
      (((Finset.range p).filter (fun k => P (t k))).filter (fun k => t k = v)).card = if v = 0 then m - 1 else m := by
    intro v hv
    rw [← ho v]
    congr 1
    ext k
    simp only [Finset.mem_filter, Finset.mem_univ, true_and] at hv ⊢
    exact ⟨fun h => ⟨h.1.1, h.2⟩, fun h => ⟨⟨h.1, by rw [h.2]; exact hv⟩, h.2⟩⟩
  rw [Finset.sum_congr rfl hs]
  have hsum : ∀ F : Finset (Fin d → BitVec w), (∑ v ∈ F, if v = 0 then m - 1 else m) = m * F.card - if 0 ∈ F then 1 else 0 := by
    intro F
    have : ∀ v ∈ F, (if v = 0 then m - 1 else m) + (if v = 0 then 1 else 0) = m := by
      intro v _; split <;> omega
    have h3 := Finset.sum_congr rfl this
    rw [Finset.sum_add_distrib, Finset.sum_const, smul_eq_mul, Finset.sum_ite_eq' F 0] at h3
    rw [mul_comm m, ← h3]
    omega
  rw [hsum, hT]
  congr 1
  simp

/-- Doubling runs through all places of an odd period. -/
theorem card_double {p : ℕ} (hp : Nat.Coprime p 2) (Q : ℕ → Prop) :
    Nat.card {k : ℕ // k < p ∧ Q (2 * k % p)} = Nat.card {k : ℕ // k < p ∧ Q k} := by
  refine Nat.card_congr (Equiv.ofBijective (fun k => ⟨2 * k.1 % p, Nat.mod_lt _ (by have := k.2.1; omega), k.2.2⟩) ⟨?_, ?_⟩)
  · rintro ⟨a, ha, ha'⟩ ⟨b, hb, hb'⟩ e
    have e1 : 2 * a ≡ 2 * b [MOD p] := congrArg Subtype.val e
    have e2 := Nat.ModEq.cancel_left_of_coprime hp e1
    exact Subtype.ext (Nat.ModEq.eq_of_lt_of_lt e2 ha hb)
  · rintro ⟨m, hm, hQ⟩
    obtain ⟨L, hL, e⟩ := half_shift hp hm
    have e : 2 * L % p = m := Eq.trans e (Nat.mod_eq_of_lt hm)
    exact ⟨⟨L, hL, by rw [e]; exact hQ⟩, Subtype.ext e⟩

theorem upper_append (a b : BitVec 32) : (a ++ b).extractLsb' 32 32 = a := by
  apply BitVec.eq_of_getLsbD_eq
  intro i hi
  rw [BitVec.getLsbD_extractLsb', BitVec.getLsbD_append]
  simp [hi]

theorem lower_append (a b : BitVec 32) : (a ++ b).extractLsb' 0 32 = b := by
  apply BitVec.eq_of_getLsbD_eq
  intro i hi
  rw [BitVec.getLsbD_extractLsb', BitVec.getLsbD_append]
  simp [hi]

theorem append_halves (v : BitVec 64) : v.extractLsb' 32 32 ++ v.extractLsb' 0 32 = v := by
  apply BitVec.eq_of_getLsbD_eq
  intro i hi
  rw [BitVec.getLsbD_append, BitVec.getLsbD_extractLsb', BitVec.getLsbD_extractLsb']
  by_cases h : i < 32
  · simp [h]
  · have h1 : i - 32 < 32 := by omega
    have h2 : 32 + (i - 32) = i := by omega
    simp [h, h1, h2]

/-- Tuples of `2 D + 1` words whose first `D` pairs are given. -/
theorem card_pairs (D : ℕ) (V : ℕ → BitVec 64) :
    Nat.card {v : Fin (2 * D + 1) → BitVec 32 // ∀ j (h : j < D), v ⟨2 * j, by omega⟩ ++ v ⟨2 * j + 1, by omega⟩ = V j} = 2 ^ 32 := by
  rw [← card_bitVec 32]
  refine Nat.card_congr ⟨fun v => v.1 ⟨2 * D, by omega⟩, fun u => ⟨fun i => if i.1 = 2 * D then u else
    if i.1 % 2 = 0 then (V (i.1 / 2)).extractLsb' 32 32 else (V (i.1 / 2)).extractLsb' 0 32, fun j hj => ?_⟩, fun v => ?_, fun u => ?_⟩
  · dsimp only
    rw [if_neg (show ¬ 2 * j = 2 * D by omega), if_pos (show 2 * j % 2 = 0 by omega), if_neg (show ¬ 2 * j + 1 = 2 * D by omega),
      if_neg (show ¬ (2 * j + 1) % 2 = 0 by omega), show 2 * j / 2 = j by omega, show (2 * j + 1) / 2 = j by omega, append_halves]
  · apply Subtype.ext
    funext i
    dsimp only
    have hi := i.2
    split_ifs with h1 h2
    · exact congrArg v.1 (Fin.ext h1.symm)
    · rw [← v.2 (i.1 / 2) (by omega), upper_append]
      exact congrArg v.1 (Fin.ext (by dsimp only; omega))
    · rw [← v.2 (i.1 / 2) (by omega), lower_append]
      exact congrArg v.1 (Fin.ext (by dsimp only; omega))
  · simp

/-- Tuples of 64-bit words whose upper halves are given. -/
theorem card_upper (D : ℕ) (V : Fin D → BitVec 32) :
    Nat.card {v : Fin D → BitVec 64 // ∀ j, (v j).extractLsb' 32 32 = V j} = (2 ^ 32) ^ D := by
  have : Nat.card (Fin D → BitVec 32) = (2 ^ 32) ^ D := by rw [Nat.card_fun, card_bitVec, Nat.card_eq_fintype_card, Fintype.card_fin]
  rw [← this]
  refine Nat.card_congr ⟨fun v j => (v.1 j).extractLsb' 0 32, fun u => ⟨fun j => V j ++ u j, fun j => upper_append _ _⟩, fun v => ?_, fun u => ?_⟩
  · apply Subtype.ext
    funext j
    dsimp only
    rw [← v.2 j, append_halves]
  · funext j
    exact lower_append _ _

theorem other_count32 {n : ℕ} (hn : n = 19937) (s : St 32) (o : Op 32) (ho : o.IsSeed) (hv : o.Valid) :
    ∃ z : ℕ → BitVec 64, Delivers step32 s o .getOther z ∧ ∀ K v,
      ((∃ j, j < 311 ∧ v j ≠ 0) → occurrences (fun k => z (K + k)) (2 ^ n - 1) 311 v = 2 ^ 33) ∧
      ((∀ j, j < 311 → v j = 0) → occurrences (fun k => z (K + k)) (2 ^ n - 1) 311 v = 2 ^ 33 - 1) := by
  obtain ⟨y, hy, c⟩ := count32 hn s o ho hv
  obtain ⟨x, hx, h0, d1, d2⟩ := seeded32 s o ho hv
  have hyx : ∀ k, temper32 (x (624 + k)) = y k := fun k => setWidth_inj.1 (congrFun (delivers_unique d1 hy) k)
  refine ⟨_, d2, fun K v => ?_⟩
  simp only [hyx]
  obtain ⟨y1, hy1, py⟩ := period32 hn s o ho hv
  obtain rfl := delivers_unique hy hy1
  have hper : ∀ a i, y (2 * K + (a % (2 ^ n - 1) + i)) = y (2 * K + (a + i)) := by
    intro a i
    have := (py 0 ((2 ^ n - 1) * (a / (2 ^ n - 1)))).2 (Dvd.intro _ rfl) (2 * K + (a % (2 ^ n - 1) + i)) (Nat.zero_le _)
    have e := Nat.mod_add_div a (2 ^ n - 1)
    refine (setWidth_inj.1 this).symm.trans (congrArg y ?_)
    omega
  have hodd := two_pow_sub_one_odd (n := n) (by omega)
  generalize 2 ^ n - 1 = p at c hper hodd ⊢
  have key := tuples_pred (d := 2 * 311 + 1) (m := 2 ^ 1) (p := p) (y := fun k => y (2 * K + k)) (by norm_num)
    (fun u => (c (2 * K) u).1) (fun u => (c (2 * K) u).2)
    (fun u => ∀ j (h : j < 311), u ⟨2 * j, by omega⟩ ++ u ⟨2 * j + 1, by omega⟩ = v j)
  rw [card_pairs] at key
  have e : occurrences (fun k => y (2 * (K + k)) ++ y (2 * (K + k) + 1)) p 311 v =
      Nat.card {k : ℕ // k < p ∧ ∀ j, j < 311 → y (2 * K + (k + 2 * j)) ++ y (2 * K + (k + (2 * j + 1))) = v j} := by
    rw [← card_double hodd]
    refine Nat.card_congr (Equiv.subtypeEquivRight fun k => and_congr_right fun _ =>
      forall_congr' fun j => imp_congr_right fun _ => ?_)
    dsimp only
    rw [hper, hper, show 2 * (K + (k + j)) = 2 * K + (2 * k + 2 * j) by omega,
      show 2 * K + (2 * k + 2 * j) + 1 = 2 * K + (2 * k + (2 * j + 1)) by omega]
  rw [e, key]
  have hz : (∀ j (h : j < 311), (0 : Fin (2 * 311 + 1) → BitVec 32) ⟨2 * j, by omega⟩ ++ (0 : Fin (2 * 311 + 1) → BitVec 32) ⟨2 * j + 1, by omega⟩ = v j) ↔
      ∀ j, j < 311 → v j = 0 := by
    refine forall_congr' fun j => forall_congr' fun _ => ?_
    show (0 : BitVec 32) ++ (0 : BitVec 32) = v j ↔ _
    rw [show (0 : BitVec 32) ++ (0 : BitVec 32) = (0 : BitVec 64) by decide, eq_comm]
  constructor
  · rintro ⟨j, hj, hne⟩
    rw [if_neg (fun h => hne (hz.1 h j hj))]
    norm_num
  · intro h
    rw [if_pos (hz.2 h)]
    norm_num

theorem other_count64 {n : ℕ} (hn : n = 19937) (s : St 64) (o : Op 64) (ho : o.IsSeed) (hv : o.Valid) :
    ∃ z : ℕ → BitVec 32, Delivers step64 s o .getOther (fun k => (z k).setWidth 64) ∧ ∀ K v,
      ((∃ j, j < 311 ∧ v j ≠ 0) → occurrences (fun k => z (K + k)) (2 ^ n - 1) 311 v = 2 ^ 33 * (2 ^ 32) ^ 311) ∧
      ((∀ j, j < 311 → v j = 0) → occurrences (fun k => z (K + k)) (2 ^ n - 1) 311 v = 2 ^ 33 * (2 ^ 32) ^ 311 - 1) := by
  obtain ⟨y, hy, c⟩ := count64 hn s o ho hv
  obtain ⟨x, hx, h0, d1, d2⟩ := seeded64 s o ho hv
  have hyx : ∀ k, temper64 (x (312 + k)) = y k := fun k => congrFun (delivers_unique d1 hy) k
  refine ⟨_, d2, fun K v => ?_⟩
  simp only [hyx]
  generalize 2 ^ n - 1 = p at c ⊢
  have key := tuples_pred (d := 311) (m := 2 ^ 33) (p := p) (y := fun k => y (K + k)) (by norm_num)
    (fun u => (c K u).1) (fun u => (c K u).2) (fun u => ∀ j, (u j).extractLsb' 32 32 = v j)
  rw [card_upper 311 (fun j => v j)] at key
  have e : occurrences (fun k => (y (K + k)).extractLsb' 32 32) p 311 v =
      Nat.card {k : ℕ // k < p ∧ ∀ j : Fin 311, (y (K + (k + j))).extractLsb' 32 32 = v j} :=
    Nat.card_congr (Equiv.subtypeEquivRight fun k => and_congr_right fun _ =>
      ⟨fun h j => h j.1 j.2, fun h j hj => h ⟨j, hj⟩⟩)
  rw [e, key]
  have hz : (∀ j : Fin 311, ((0 : Fin 311 → BitVec 64) j).extractLsb' 32 32 = v j) ↔ ∀ j, j < 311 → v j = 0 := by
    have h0 : ∀ j : Fin 311, ((0 : Fin 311 → BitVec 64) j).extractLsb' 32 32 = (0 : BitVec 32) := fun j => by
      show (0 : BitVec 64).extractLsb' 32 32 = 0
      decide
    exact ⟨fun h j hj => (h ⟨j, hj⟩).symm.trans (h0 _), fun h j => (h0 j).trans (h j.1 j.2).symm⟩
  generalize (2 ^ 32) ^ 311 = c'
  constructor
  · rintro ⟨j, hj, hne⟩
    rw [if_neg (fun h => hne (hz.1 h j hj)), Nat.sub_zero]
  · intro h
    rw [if_pos (hz.2 h)]

/-! ## C132 -/

/-- **C132.**  Over any full period of `getUint64` results of `MersenneTwister` every 311-tuple of 64-bit words occurs exactly `2^33`
times, the zero tuple once less. -/
theorem mt19937_getUint64_equidistributed (s : St 32) (o : Op 32) (ho : o.IsSeed) (hv : o.Valid) :
    ∃ z : ℕ → BitVec 64, Delivers step32 s o .getOther z ∧ ∀ K v,
      ((∃ j, j < 311 ∧ v j ≠ 0) → occurrences (fun k => z (K + k)) (2 ^ 19937 - 1) 311 v = 2 ^ 33) ∧
      ((∀ j, j < 311 → v j = 0) → occurrences (fun k => z (K + k)) (2 ^ 19937 - 1) 311 v = 2 ^ 33 - 1) := other_count32 rfl s o ho hv

/-- **C132.**  Over any full period of `getUint32` results of `MersenneTwister64` every 311-tuple of 32-bit words occurs exactly
`2^9985` times, the zero tuple once less. -/
theorem mt19937_64_getUint32_equidistributed (s : St 64) (o : Op 64) (ho : o.IsSeed) (hv : o.Valid) :
    ∃ z : ℕ → BitVec 32, Delivers step64 s o .getOther (fun k => (z k).setWidth 64) ∧ ∀ K v,
      ((∃ j, j < 311 ∧ v j ≠ 0) → occurrences (fun k => z (K + k)) (2 ^ 19937 - 1) 311 v = 2 ^ 9985) ∧
      ((∀ j, j < 311 → v j = 0) → occurrences (fun k => z (K + k)) (2 ^ 19937 - 1) 311 v = 2 ^ 9985 - 1) := by
  have e : 2 ^ 9985 = 2 ^ 33 * (2 ^ 32) ^ 311 := by rw [← pow_mul, ← pow_add]
  rw [e]
  exact other_count64 rfl s o ho hv

/-- The hypotheses can be met, and both cases of the counts occur. -/
example (s : St 64) : ∃ z : ℕ → BitVec 32, Delivers step64 s (.seed 1) .getOther (fun k => (z k).setWidth 64) ∧
    occurrences z (2 ^ 19937 - 1) 311 (fun j => BitVec.ofNat 32 j) = 2 ^ 9985 ∧
    occurrences z (2 ^ 19937 - 1) 311 (fun _ => 0) = 2 ^ 9985 - 1 := by
  obtain ⟨z, hz, h⟩ := mt19937_64_getUint32_equidistributed s (.seed 1) trivial trivial
  have h1 := (h 0 (fun j => BitVec.ofNat 32 j)).1 ⟨1, by norm_num, by decide⟩
  have h2 := (h 0 (fun _ => 0)).2 fun _ _ => rfl
  simp only [Nat.zero_add] at h1 h2
  exact ⟨z, hz, h1, h2⟩

end MTT.MT
