import Verif.Util.SequentialProps
import Mathlib.Tactic.NormNum

/-!
# C12: the countdown seen through `getUint32` and `getUint64`, in any mixture, after any of the seeding functions
-/

namespace MTT.Seq

variable {w : Nat}

/-- The functions that deliver a value, Sequential.hpp:178-180, 199-201, 224-234. -/
inductive Get
  | next
  | get32
  | get64

/-- One of these calls; the value as a number, `none` for the exception. -/
def get (s : St w) : Get → St w × Option ℕ
  | .next => ((next s).1, (next s).2.map BitVec.toNat)
  | .get32 => ((getUint32 s).1, (getUint32 s).2.map BitVec.toNat)
  | .get64 => ((getUint64 s).1, (getUint64 s).2.map BitVec.toNat)

/-- A list of such calls. -/
def gets (s : St w) : List Get → List (Option ℕ)
  | [] => []
  | g :: gs => (get s g).2 :: gets (get s g).1 gs

/-- The functions that seed, Sequential.hpp:123-138, 156-159. -/
inductive Seed (w : Nat)
  | seed32 (v : BitVec 32)
  | seed64 (v : BitVec 64)
  | reseed (v : BitVec w)

/-- The call in a history. -/
def Seed.op : Seed w → Op w
  | .seed32 v => .seed32 v
  | .seed64 v => .seed64 v
  | .reseed v => .reseed v

/-- The value given, as a number. -/
def Seed.value : Seed w → ℕ
  | .seed32 v => v.toNat
  | .seed64 v => v.toNat
  | .reseed v => v.toNat

/-- Specification: with `N = value mod 2^w` the `i`-th value is `(N - i) xor mask`, reduced to the width of the result type, for
`i ≤ N`; then there is the exception. -/
def expected (mask : BitVec w) (N i : ℕ) (g : Get) : Option ℕ :=
  if i ≤ N then some (((N - i) ^^^ mask.toNat) % 2 ^ (match g with | .next => w | .get32 => 32 | .get64 => 64)) else none

theorem get_state (s : St w) (g : Get) : (get s g).1 = (next s).1 := by cases g <;> rfl

theorem get_value (s : St w) (g : Get) : (get s g).2 =
    (next s).2.map fun x => x.toNat % 2 ^ (match g with | .next => w | .get32 => 32 | .get64 => 64) := by
  cases g with
  | next =>
    show (next s).2.map _ = _
    congr 1
    funext x
    exact (Nat.mod_eq_of_lt x.isLt).symm
  | get32 =>
    show ((next s).2.map _).map _ = _
    rw [Option.map_map]
    congr 1
    funext x
    exact BitVec.toNat_setWidth _ _
  | get64 =>
    show ((next s).2.map _).map _ = _
    rw [Option.map_map]
    congr 1
    funext x
    exact BitVec.toNat_setWidth _ _

theorem gets_eq (gs : List Get) (s : St w) (i : ℕ) :
    (gets s gs)[i]? = gs[i]?.map fun g =>
      ((run s (List.replicate (i + 1) .next)).2.getD i none).map
        fun x => x.toNat % 2 ^ (match g with | .next => w | .get32 => 32 | .get64 => 64) := by
  induction gs generalizing s i with
  | nil => simp [gets]
  | cons g gs ih =>
    cases i with
    | zero =>
      show some (get s g).2 = some _
      rw [get_value]
      rfl
    | succ i =>
      show (gets (get s g).1 gs)[i]? = _
      rw [ih, get_state, List.replicate_succ]
      rfl

/-- **C12.**  After any history of calls and a seeding by any of the three functions, a mixture of calls of `next`, `getUint32`
and `getUint64` delivers the countdown, each value reduced to the width of its result type, and then exceptions. -/
theorem sequential_calls (s : St w) (os : List (Op w)) (sd : Seed w) (gs : List Get) :
    (gets (run s (os ++ [sd.op])).1 gs) = gs.mapIdx fun i g => expected s.mask (sd.value % 2 ^ w) i g := by
  apply List.ext_getElem?
  intro i
  rw [gets_eq, List.getElem?_mapIdx]
  congr 1
  funext g
  obtain ⟨v, hv, hr⟩ : ∃ v : BitVec w, v.toNat = sd.value % 2 ^ w ∧
      (run s (os ++ [sd.op])).1 = reseed v (run s os).1 := by
    rw [run_append]
    cases sd with
    | seed32 a => exact ⟨a.setWidth w, BitVec.toNat_setWidth _ _, rfl⟩
    | seed64 a => exact ⟨a.setWidth w, BitVec.toNat_setWidth _ _, rfl⟩
    | reseed a => exact ⟨a, (Nat.mod_eq_of_lt a.isLt).symm, rfl⟩
  rw [hr, next_count s.mask v (i + 1) 0 _ (by exact run_mask s os) (by simp [reseed]), ← hv]
  simp only [Nat.zero_add]
  rw [List.getD_eq_getElem?_getD, List.getElem?_map, List.getElem?_range (Nat.lt_succ_self i)]
  show (countdown s.mask v i).map _ = _
  unfold countdown expected
  by_cases h : i ≤ v.toNat
  · rw [if_pos h, if_pos h]
    show some _ = some _
    dsimp only
    rw [BitVec.toNat_xor, BitVec.toNat_ofNat, Nat.mod_eq_of_lt (lt_of_le_of_lt (Nat.sub_le _ _) v.isLt)]
  · rw [if_neg h, if_neg h]
    rfl

-- A 64-bit object seeded through the 32-bit function after it was exhausted, and read by all three functions.
example : gets (run (make2 (0x100000001 : BitVec 64) 0) ([.next, .next] ++ [(Seed.seed32 3 : Seed 64).op])).1
    [.next, .get32, .get64, .get32, .get32] = [some (2 ^ 32 + 2), some 3, some (2 ^ 32), some 1, none] := by decide +kernel

-- A 32-bit object seeded with a 64-bit value keeps the lower half.
example : gets (run (make1 (0 : BitVec 32)) [(Seed.seed64 0x500000001 : Seed 32).op]).1
    [.get64, .get32, .get32] = [some 1, some 0, none] := by decide +kernel

end MTT.Seq
