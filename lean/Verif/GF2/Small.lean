import Verif.GF2.Cert
import Verif.Period.TablesProps
import Verif.Mexp.Small
import Verif.Samples.TinyRefLemmas
import Verif.Samples.XorShiftProps

/-!
# The characteristic polynomials of the fixed generators with 127 and 128 bits
-/

set_option Elab.async false

namespace MTT.GF2

open Polynomial

theorem factors_128 (q : ℕ) (hq : q.Prime) (hd : q ∣ 2 ^ 128 - 1) :
    q ∈ [3, 5, 17, 257, 641, 65537, 274177, 6700417, 67280421310721] :=
  (Period.checkTable_sound (N := 128) (L := [3, 5, 17, 257, 641, 65537, 274177, 6700417, 67280421310721])
    (by decide +kernel) q).2 ⟨hq, hd⟩

theorem factors_127 (q : ℕ) (hq : q.Prime) (hd : q ∣ 2 ^ 127 - 1) : q ∈ [170141183460469231731687303715884105727] := by
  have h := (Nat.prime_dvd_prime_iff_eq hq Mexp.prime127).1 hd
  rw [h, List.mem_singleton]
  norm_num

/-- xorshift-1.cpp and xorshift-2.cpp. -/
theorem prim_x1 : Primitive2 (bitPoly (128 + 1) 0x100a8e9b5caadf48ae8eff7bae3f6ca09) 128 :=
  primitive_of_check (s := 8) (mu := 0x100a8addd3d25d4df0a28ee77d4675bd3) (by decide) (by decide) (by decide)
    factors_128 (by decide +kernel)

/-- xorshift-5.cpp and xorshift128.c. -/
theorem prim_x5 : Primitive2 (bitPoly (128 + 1) 0x1000000c1c0d910998f0f311e6cf500c1) 128 :=
  primitive_of_check (s := 8) (mu := 0x1000000c1c0d94098df330c990504e242) (by decide) (by decide) (by decide)
    factors_128 (by decide +kernel)

/-- `Tiny32`. -/
theorem prim_t32 : Primitive2 (bitPoly (127 + 1) 0xd8524022ed8dff4a8dcc50c798faba43) 127 :=
  primitive_of_check (s := 8) (mu := 0xe3cdfeee6d61d04b80968734aa4c6306) (by decide) (by decide) (by decide)
    factors_127 (by decide +kernel)

/-- `Tiny64`. -/
theorem prim_t64 : Primitive2 (bitPoly (127 + 1) 0x945e0ad4a30ec19432dfa9d5959e5d5d) 127 :=
  primitive_of_check (s := 8) (mu := 0x962329d31406992a1df24f6333dd7277) (by decide) (by decide) (by decide)
    factors_127 (by decide +kernel)

/-! ## They annihilate the states -/

/-- Evaluates a state. -/
def fS {a b c d : ℕ} {α : Type} (s : Wd a × Wd b × Wd c × Wd d) (k : Wd a × Wd b × Wd c × Wd d → α) : α :=
  fw s.1 fun x => fw s.2.1 fun y => fw s.2.2.1 fun z => fw s.2.2.2 fun w => k (x, y, z, w)

theorem fS_eq {a b c d : ℕ} {α : Type} (s : Wd a × Wd b × Wd c × Wd d) (k : Wd a × Wd b × Wd c × Wd d → α) :
    fS s k = k s := by
  unfold fS
  rw [fw_eq, fw_eq, fw_eq, fw_eq]

/-- Evaluates a state. -/
def fP {a b : ℕ} {α : Type} (s : Wd a × Wd b) (k : Wd a × Wd b → α) : α := fw s.1 fun x => fw s.2 fun y => k (x, y)

theorem fP_eq {a b : ℕ} {α : Type} (s : Wd a × Wd b) (k : Wd a × Wd b → α) : fP s k = k s := by
  unfold fP
  rw [fw_eq, fw_eq]

/-- xorshift-1.cpp and xorshift-2.cpp. -/
theorem ann_x1 (s : XorShift.S) : aeval (XorShift.T ⟨5, 1, 5, 14, 0, 0, 0, 0⟩) (bitPoly (128 + 1) 0x100a8e9b5caadf48ae8eff7bae3f6ca09) s = 0 := by
  refine aeval_all (by decide) XorShift.finrank_S prim_x1 (e := (Wd.of 1, 0, 0, 0)) (by decide) ?_ s
  have h := ev_spec (T := XorShift.T ⟨5, 1, 5, 14, 0, 0, 0, 0⟩) (fc := fS) (fun s k => fS_eq s k) (f := fun s => (XorShift.T ⟨5, 1, 5, 14, 0, 0, 0, 0⟩) s) (fun _ => rfl) (128 + 1)
    0x100a8e9b5caadf48ae8eff7bae3f6ca09 (Wd.of 1, 0, 0, 0) 0
  rw [zero_add] at h
  rw [← h]
  decide +kernel

/-- xorshift-5.cpp and xorshift128.c. -/
theorem ann_x5 (s : XorShift.S) : aeval (XorShift.T ⟨7, 20, 11, 7, 0, 0, 0, 0⟩) (bitPoly (128 + 1) 0x1000000c1c0d910998f0f311e6cf500c1) s = 0 := by
  refine aeval_all (by decide) XorShift.finrank_S prim_x5 (e := (Wd.of 1, 0, 0, 0)) (by decide) ?_ s
  have h := ev_spec (T := XorShift.T ⟨7, 20, 11, 7, 0, 0, 0, 0⟩) (fc := fS) (fun s k => fS_eq s k) (f := fun s => (XorShift.T ⟨7, 20, 11, 7, 0, 0, 0, 0⟩) s) (fun _ => rfl) (128 + 1)
    0x1000000c1c0d910998f0f311e6cf500c1 (Wd.of 1, 0, 0, 0) 0
  rw [zero_add] at h
  rw [← h]
  decide +kernel

/-- `Tiny32`. -/
theorem ann_t32 (s : TinyMT.S) : aeval (TinyMT.T ⟨0, 0, 0, 0, 0, 0x8f7011ee, 0xfc78ff1f, 0x3793fdff, false⟩) (bitPoly (127 + 1) 0xd8524022ed8dff4a8dcc50c798faba43) s = 0 := by
  refine aeval_all (by decide) TinyMT.finrank_S prim_t32 (e := (Wd.of 1, 0, 0, 0)) (by decide) ?_ s
  have h := ev_spec (T := TinyMT.T ⟨0, 0, 0, 0, 0, 0x8f7011ee, 0xfc78ff1f, 0x3793fdff, false⟩) (fc := fS) (fun s k => fS_eq s k) (f := fun s => (TinyMT.T ⟨0, 0, 0, 0, 0, 0x8f7011ee, 0xfc78ff1f, 0x3793fdff, false⟩) s) (fun _ => rfl) (127 + 1)
    0xd8524022ed8dff4a8dcc50c798faba43 (Wd.of 1, 0, 0, 0) 0
  rw [zero_add] at h
  rw [← h]
  decide +kernel

/-- `Tiny64`. -/
theorem ann_t64 (s : TinyRef.S64) : aeval (TinyRef.TL ⟨0, 0, 0xfa051f40, 0xffd0fff4, 0x58d02ffeffbfffbc⟩) (bitPoly (127 + 1) 0x945e0ad4a30ec19432dfa9d5959e5d5d) s = 0 := by
  refine aeval_all (by decide) TinyRef.finrank_S64 prim_t64 (e := (Wd.of 1, 0)) (by decide) ?_ s
  have h := ev_spec (T := TinyRef.TL ⟨0, 0, 0xfa051f40, 0xffd0fff4, 0x58d02ffeffbfffbc⟩) (fc := fP) (fun s k => fP_eq s k) (f := fun s => (TinyRef.TL ⟨0, 0, 0xfa051f40, 0xffd0fff4, 0x58d02ffeffbfffbc⟩) s) (fun _ => rfl) (127 + 1)
    0x945e0ad4a30ec19432dfa9d5959e5d5d (Wd.of 1, 0) 0
  rw [zero_add] at h
  rw [← h]
  decide +kernel

end MTT.GF2
