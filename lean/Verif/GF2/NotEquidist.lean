import Verif.GF2.Rank
import Verif.PIS.Bounds

/-!
# A certificate that outputs are not equidistributed

A relation: a list of pairs `(t, i)` such that the sum of the bits `i` of the outputs at the times `t` is zero for all states.
-/

namespace MTT.GF2

open Polynomial PIS Search

/-- The bits `e` of the words of a list, the first word in bit 0. -/
def colN (e : ℕ) : List ℕ → ℕ
  | [] => 0
  | x :: xs => x / 2 ^ e % 2 + 2 * colN e xs

/-- The sum of the columns of a relation, each from its time on. -/
def relN (w : ℕ) (ws : List ℕ) : List (ℕ × ℕ) → ℕ
  | [] => 0
  | q :: c => force (colN (w - 1 - q.2) ws) fun x => Nat.xor (x / 2 ^ q.1) (relN w ws c)

/-- Are all members inside of the window? -/
def inWin (v k : ℕ) : List (ℕ × ℕ) → Bool
  | [] => true
  | q :: c => Bool.rec false (inWin v k c) (Nat.blt q.1 k && Nat.blt q.2 v)

/-- Is the pair not in the list? -/
def notIn (q : ℕ × ℕ) : List (ℕ × ℕ) → Bool
  | [] => true
  | r :: c => Bool.rec (notIn q c) false (Nat.beq r.1 q.1 && Nat.beq r.2 q.2)

/-- Does the list refute the pair `(v, k)`? -/
def relOK (w n : ℕ) (ws : List ℕ) (v k : ℕ) : List (ℕ × ℕ) → Bool
  | [] => false
  | q :: c => Nat.ble v w && (Nat.ble (n + k) ws.length && (inWin v k (q :: c) && (notIn q c && Nat.beq (relN w ws (q :: c) % 2 ^ n) 0)))

/-- All refutations of a list. -/
def relsOK (w n : ℕ) (ws : List ℕ) : List ((ℕ × ℕ) × List (ℕ × ℕ)) → Bool
  | [] => true
  | p :: ps => Bool.rec false (relsOK w n ws ps) (relOK w n ws p.1.1 p.1.2 p.2)

variable {S : Type} [AddCommGroup S] [Module (ZMod 2) S] {T : S →ₗ[ZMod 2] S} {O : S →ₗ[ZMod 2] V} {g : S → ℕ} {w v k : ℕ}

/-- The sum of a relation for a state. -/
def relSum (T : S →ₗ[ZMod 2] S) (O : S →ₗ[ZMod 2] V) (s : S) (c : List (ℕ × ℕ)) : ZMod 2 :=
  (c.map fun q => O ((T ^ q.1) s) q.2).sum

theorem inWin_iff (c : List (ℕ × ℕ)) : inWin v k c = true ↔ ∀ q ∈ c, q.1 < k ∧ q.2 < v := by
  induction c with
  | nil => simp [inWin]
  | cons q c ih =>
    have : inWin v k (q :: c) = (Nat.blt q.1 k && Nat.blt q.2 v && inWin v k c) := by
      rw [inWin]; cases (Nat.blt q.1 k && Nat.blt q.2 v) <;> simp
    rw [this, Bool.and_eq_true, Bool.and_eq_true, Nat.blt_eq, Nat.blt_eq, ih]
    simp

theorem notIn_iff (q : ℕ × ℕ) (c : List (ℕ × ℕ)) : notIn q c = true ↔ q ∉ c := by
  induction c with
  | nil => simp [notIn]
  | cons r c ih =>
    have : notIn q (r :: c) = (!(Nat.beq r.1 q.1 && Nat.beq r.2 q.2) && notIn q c) := by
      rw [notIn]; cases (Nat.beq r.1 q.1 && Nat.beq r.2 q.2) <;> simp
    rw [this, Bool.and_eq_true, ih, List.mem_cons, not_or, Bool.not_eq_true', ← Bool.not_eq_true, Bool.and_eq_true, Nat.beq_eq, Nat.beq_eq]
    refine and_congr_left fun _ => not_congr ?_
    rw [Prod.ext_iff, eq_comm, eq_comm (a := q.2)]

theorem relSum_unit (a : ℕ × ℕ) (c : List (ℕ × ℕ)) (h : a ∉ c) :
    (c.map fun q => if q = a then (1 : ZMod 2) else 0).sum = 0 := by
  induction c with
  | nil => rfl
  | cons r c ih =>
    rw [List.mem_cons, not_or] at h
    rw [List.map_cons, List.sum_cons, ih h.2, if_neg (fun e => h.1 e.symm), add_zero]

theorem not_equidist_of_rel {W : Submodule (ZMod 2) S} {q : ℕ × ℕ} {c : List (ℕ × ℕ)} (h1 : ∀ r ∈ q :: c, r.1 < k ∧ r.2 < v)
    (h2 : q ∉ c) (h3 : ∀ s ∈ W, relSum T O s (q :: c) = 0) : ¬ Equidist T O W v k := by
  intro h
  classical
  obtain ⟨s, hs, e⟩ := h (fun t i => if (t, i) = q then 1 else 0)
  have h4 := h3 s hs
  rw [relSum, List.map_congr_left (g := fun r => if r = q then (1 : ZMod 2) else 0) (fun r hr => e r.1 (h1 r hr).1 r.2 (h1 r hr).2),
    List.map_cons, List.sum_cons, relSum_unit q c h2, if_pos rfl, add_zero] at h4
  exact one_ne_zero h4

theorem colN_spec (e : ℕ) (L : ℕ) : ∀ s j, j < L → (colN e (seqL T g L s)).testBit j = (g ((T ^ j) s)).testBit e := by
  induction L with
  | zero => intro s j h; omega
  | succ L ih =>
    intro s j hj
    rw [seqL, colN]
    cases j with
    | zero =>
      rw [Nat.testBit_zero, Nat.add_mul_mod_self_left, Nat.mod_mod, pow_zero, Module.End.one_apply, Nat.testBit_eq_decide_div_mod_eq]
    | succ j =>
      rw [Nat.testBit_succ, Nat.add_mul_div_left _ _ (by omega), Nat.div_eq_of_lt (Nat.mod_lt _ (by omega)), Nat.zero_add,
        ih _ _ (by omega), pow_succ, Module.End.mul_apply]

theorem relN_spec (hg : IsWord O g w) (hv : v ≤ w) {L j : ℕ} (hL : j + k ≤ L) (s : S) (c : List (ℕ × ℕ)) :
    (∀ q ∈ c, q.1 < k ∧ q.2 < v) → relSum T O ((T ^ j) s) c = if (relN w (seqL T g L s) c).testBit j then 1 else 0 := by
  induction c with
  | nil => intro _; simp [relSum, relN]
  | cons q c ih =>
    intro h
    have hq := h q List.mem_cons_self
    have ih := ih fun r hr => h r (List.mem_cons_of_mem _ hr)
    have e : relSum T O ((T ^ j) s) (q :: c) = O ((T ^ q.1) ((T ^ j) s)) q.2 + relSum T O ((T ^ j) s) c := by
      rw [relSum, List.map_cons, List.sum_cons]; rfl
    have e2 : relN w (seqL T g L s) (q :: c) = (colN (w - 1 - q.2) (seqL T g L s) / 2 ^ q.1) ^^^ relN w (seqL T g L s) c := by
      rw [relN, force_eq]; rfl
    rw [e, ih, e2, Nat.testBit_xor, Nat.testBit_div_two_pow, colN_spec _ _ _ _ (by omega), ← Module.End.mul_apply, ← pow_add,
      (hg _).2 q.2 (by omega), Nat.add_comm j q.1]
    cases (g ((T ^ (q.1 + j)) s)).testBit (w - 1 - q.2) <;> cases (relN w (seqL T g L s) c).testBit j <;> decide

theorem relSum_add (s u : S) (c : List (ℕ × ℕ)) : relSum T O (s + u) c = relSum T O s c + relSum T O u c := by
  induction c with
  | nil => simp [relSum]
  | cons q c ih =>
    unfold relSum at ih ⊢
    rw [List.map_cons, List.sum_cons, List.map_cons, List.sum_cons, List.map_cons, List.sum_cons, ih, map_add, map_add, Pi.add_apply]
    ring

theorem relSum_zero (c : List (ℕ × ℕ)) : relSum T O 0 c = 0 := by
  have := relSum_add (T := T) (O := O) 0 0 c
  rw [add_zero] at this
  exact left_eq_add.1 this

theorem relSum_smul (a : ZMod 2) (s : S) (c : List (ℕ × ℕ)) : relSum T O (a • s) c = a * relSum T O s c := by
  have : a = 0 ∨ a = 1 := by revert a; decide
  rcases this with rfl | rfl
  · rw [zero_smul, relSum_zero, zero_mul]
  · rw [one_smul, one_mul]

/-- **The certificate.** -/
theorem not_equidist_of_check [Module.Finite (ZMod 2) S] {n : ℕ} (hn : Module.finrank (ZMod 2) S = n) {fc : S → (S → Bool) → Bool}
    (hfc : ∀ s k, fc s k = k s) {f : S → S} (hf : ∀ s, T s = f s) (hg : IsWord O g w) {L : ℕ} {s0 : S}
    {ps : List ((ℕ × ℕ) × List (ℕ × ℕ))} (h : seqK fc f g L s0 (fun ws => relsOK w n ws ps) = true) :
    ∀ p ∈ ps, ¬ Equidist T O (cyc T s0) p.1.1 p.1.2 := by
  rw [seqK_eq hfc, show f = T from funext fun s => (hf s).symm] at h
  induction ps with
  | nil => intro p hp; exact absurd hp List.not_mem_nil
  | cons q ps ih =>
    rw [relsOK] at h
    cases hc : relOK w n (seqL T g L s0) q.1.1 q.1.2 q.2 with
    | false => rw [hc] at h; exact absurd h Bool.false_ne_true
    | true =>
      rw [hc] at h
      intro p hp
      rcases List.mem_cons.1 hp with rfl | hp
      · obtain ⟨⟨v, k⟩, c⟩ := p
        cases c with
        | nil => exact absurd hc Bool.false_ne_true
        | cons r c =>
          dsimp only at hc ⊢
          rw [relOK, Bool.and_eq_true, Bool.and_eq_true, Bool.and_eq_true, Bool.and_eq_true, inWin_iff, notIn_iff, Nat.beq_eq] at hc
          obtain ⟨c1, c2, c3, c4, c5⟩ := hc
          have c1 := Nat.le_of_ble_eq_true c1
          have c2 := Nat.le_of_ble_eq_true c2
          rw [seqL_length] at c2
          refine not_equidist_of_rel c3 c4 fun s hs => ?_
          obtain ⟨hm, h0, hd⟩ := charpoly_hyps T s0
          rw [cyc_finrank hm h0] at hs
          induction hs using Submodule.span_induction with
          | mem x hx =>
            obtain ⟨⟨j, hj⟩, rfl⟩ := hx
            rw [hd, hn] at hj
            dsimp only
            rw [relN_spec hg c1 (L := L) (by omega) s0 _ c3]
            have : (relN w (seqL T g L s0) (r :: c) % 2 ^ n).testBit j = false := by rw [c5, Nat.zero_testBit]
            rw [Nat.testBit_mod_two_pow, decide_eq_true hj, Bool.true_and] at this
            rw [this]; rfl
          | zero => exact relSum_zero _
          | add x y _ _ hx hy => rw [relSum_add, hx, hy, add_zero]
          | smul a x _ hx => rw [relSum_smul, hx, mul_zero]
      · exact ih h p hp

end MTT.GF2
