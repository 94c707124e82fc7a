import Verif.Util.Sequential
import Mathlib.Data.List.Basic
import Mathlib.Tactic.Ring

/-!
# C12: the countdown of `Sequential`
-/

namespace MTT.Seq

variable {w : Nat}

/-- Specification of the `k`-th value (from 0) after seeding with `v`: `v, v-1, …, 0`, each exclusive-ored
with the mask, then exceptions. -/
def countdown (mask v : BitVec w) (k : ℕ) : Option (BitVec w) :=
  if k ≤ v.toNat then some (BitVec.ofNat w (v.toNat - k) ^^^ mask) else none

theorem next_mask (s : St w) : (next s).1.mask = s.mask := by
  unfold next; split
  · rfl
  · dsimp only; split <;> rfl

theorem step_mask (s : St w) (o : Op w) : (step s o).1.mask = s.mask := by
  cases o <;> first | rfl | exact next_mask s

theorem run_mask (s : St w) (os : List (Op w)) : (run s os).1.mask = s.mask := by
  induction os generalizing s with
  | nil => rfl
  | cons o os ih => simp only [run]; rw [ih, step_mask]

theorem run_append (s : St w) (a b : List (Op w)) :
    run s (a ++ b) = ((run (run s a).1 b).1, (run s a).2 ++ (run (run s a).1 b).2) := by
  induction a generalizing s with
  | nil => simp [run]
  | cons o os ih =>
    simp only [List.cons_append, run, ih]
    cases (step s o).2 <;> simp

theorem next_err {s : St w} (h : s.error = true) : next s = (s, none) := by
  unfold next; rw [if_pos h]

theorem next_zero {s : St w} (h : s.error = false) (h0 : s.status = 0) :
    next s = (⟨s.status - 1, s.mask, true⟩, some (s.status ^^^ s.mask)) := by
  unfold next; simp [h, h0]

theorem next_pos {s : St w} (h : s.error = false) (h0 : s.status ≠ 0) :
    next s = (⟨s.status - 1, s.mask, s.error⟩, some (s.status ^^^ s.mask)) := by
  unfold next; rw [if_neg (by simp [h]), if_neg h0]

/-- State after `k` values delivered without a reseed. -/
theorem next_count (mask v : BitVec w) (n k : ℕ) (s : St w) (hm : s.mask = mask)
    (hs : if k ≤ v.toNat then s.status = BitVec.ofNat w (v.toNat - k) ∧ s.error = false
      else s.error = true) :
    (run s (List.replicate n .next)).2 = (List.range n).map fun j => countdown mask v (k + j) := by
  induction n generalizing s k with
  | zero => rfl
  | succ n ih =>
    rw [List.replicate_succ, List.range_succ_eq_map]
    simp only [run, step, List.map_cons, List.map_map, Nat.add_zero]
    have hh : (next s).2 = countdown mask v k ∧
        if k + 1 ≤ v.toNat then (next s).1.status = BitVec.ofNat w (v.toNat - (k + 1)) ∧
          (next s).1.error = false else (next s).1.error = true := by
      by_cases hk : k ≤ v.toNat
      · rw [if_pos hk] at hs
        obtain ⟨h1, h2⟩ := hs
        have hlt : v.toNat - k < 2 ^ w := lt_of_le_of_lt (Nat.sub_le _ _) v.isLt
        have hz : s.status = 0 ↔ v.toNat = k := by
          rw [h1, ← BitVec.toNat_inj, BitVec.toNat_ofNat, Nat.mod_eq_of_lt hlt]
          simp; omega
        have hc : countdown mask v k = some (BitVec.ofNat w (v.toNat - k) ^^^ mask) := if_pos hk
        by_cases h3 : v.toNat = k
        · rw [next_zero h2 (hz.2 h3), if_neg (by omega), hc, h1, hm]
          exact ⟨rfl, rfl⟩
        · rw [next_pos h2 (fun h => h3 (hz.1 h)), if_pos (by omega), hc]
          refine ⟨by simp [h1, hm], ?_, h2⟩
          simp only [h1]
          have e : v.toNat - k = (v.toNat - (k + 1)) + 1 := by omega
          rw [e, BitVec.ofNat_add]
          exact BitVec.add_sub_cancel _ _
      · rw [if_neg hk] at hs
        have hc : countdown mask v k = none := if_neg hk
        rw [next_err hs, if_neg (by omega), hc]
        exact ⟨rfl, hs⟩
    rw [hh.1, ih (k + 1) _ ((next_mask s).trans hm) hh.2]
    congr 1
    apply List.map_congr_left
    intro j _
    simp only [Function.comp]
    congr 1; omega

/-- **C12.**  After any history of calls, seeding with `v` (by any of the seeding functions, here
`reseed`; see `seed_eq`) followed by `n` calls of `next` gives `v^mask, (v-1)^mask, …, 0^mask` and then the
exception on every further call. -/
theorem sequential_countdown (s : St w) (os : List (Op w)) (v : BitVec w) (n : ℕ) :
    (run s (os ++ .reseed v :: List.replicate n .next)).2 =
      (run s os).2 ++ (List.range n).map (countdown s.mask v) := by
  rw [run_append]
  simp only [run, step]
  rw [next_count s.mask v n 0 _ (by exact run_mask s os) (by simp [reseed])]
  simp

/-- **C12.**  The constructors with a seed value start the same countdown; the constructor without seed
starts from the largest word. -/
theorem sequential_fresh (mask v : BitVec w) (n : ℕ) :
    (run (make2 mask v) (List.replicate n .next)).2 = (List.range n).map (countdown mask v) ∧
    (run (make1 mask) (List.replicate n .next)).2 = (List.range n).map (countdown mask (-1)) := by
  constructor
  · rw [next_count mask v n 0 _ rfl (by simp [make2])]; simp
  · rw [next_count mask (-1) n 0 _ rfl (by rw [if_pos (Nat.zero_le _)]; exact ⟨by rw [Nat.sub_zero, BitVec.ofNat_toNat, BitVec.setWidth_eq]; rfl, rfl⟩)]; simp

/-- **C12.**  The seeding functions convert to the word type (seeding a 32-bit object with a 64-bit value
keeps the low half). -/
theorem seed_eq (s : St w) (a : BitVec 32) (b : BitVec 64) :
    step s (.seed32 a) = step s (.reseed (a.setWidth w)) ∧
    step s (.seed64 b) = step s (.reseed (b.setWidth w)) := ⟨rfl, rfl⟩

/-- **C12.**  `getUint32` and `getUint64` consume exactly one value and deliver it converted to the result
type: unchanged when the result type is at least as wide. -/
theorem get_eq (s : St w) :
    (getUint32 s).1 = (next s).1 ∧ (getUint64 s).1 = (next s).1 ∧
    (getUint32 s).2 = (next s).2.map (·.setWidth 32) ∧
    (getUint64 s).2 = (next s).2.map (·.setWidth 64) := ⟨rfl, rfl, rfl, rfl⟩

/-- Exactly `v+1` values are delivered, all different. -/
theorem countdown_values (mask v : BitVec w) :
    (∀ k, (countdown mask v k).isSome ↔ k < v.toNat + 1) ∧
    ∀ j k, j ≤ v.toNat → k ≤ v.toNat → countdown mask v j = countdown mask v k → j = k := by
  constructor
  · intro k
    unfold countdown
    split <;> simp <;> omega
  · intro j k hj hk h
    unfold countdown at h
    rw [if_pos hj, if_pos hk, Option.some_inj] at h
    have h2 : BitVec.ofNat w (v.toNat - j) = BitVec.ofNat w (v.toNat - k) := by
      have := congrArg (· ^^^ mask) h
      simpa [BitVec.xor_assoc] using this
    have h3 := congrArg BitVec.toNat h2
    rw [BitVec.toNat_ofNat, BitVec.toNat_ofNat,
      Nat.mod_eq_of_lt (lt_of_le_of_lt (Nat.sub_le _ _) v.isLt),
      Nat.mod_eq_of_lt (lt_of_le_of_lt (Nat.sub_le _ _) v.isLt)] at h3
    omega

/-- A concrete run: seed 2, mask 5, four calls. -/
example : (run (make2 (5 : BitVec 32) 7) [.next, .reseed 2, .next, .next, .next, .next, .next]).2 =
    [some (7 ^^^ 5), some (2 ^^^ 5), some (1 ^^^ 5), some (0 ^^^ 5), none, none] := by decide

end MTT.Seq
