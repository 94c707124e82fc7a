import Verif.Samples.FirstProps
import Verif.Search.Picks

/-!
# C121: which parameter sets `sfmtdc` and `sfmtdcfixed` print
-/

namespace MTT.SFMT

open Polynomial PIS Search Anni Parity W128

variable {mexp : ℕ} {mps : MPS} {kernel : KernelFn}

/-! ### Specification -/

/-- Set `i` of the random numbers `f`: thirteen numbers each. -/
def setAt (mexp : ℕ) (f : ℕ → BitVec 32) (i : ℕ) : Par :=
  ⟨(f (13 * i)).toNat % (mexp / 128 - 1) + 1, (f (13 * i + 1)).toNat % 31 + 1, (f (13 * i + 2)).toNat % 4 * 2 + 1,
    (f (13 * i + 3)).toNat % 31 + 1, (f (13 * i + 4)).toNat % 4 * 2 + 1, f (13 * i + 5) ||| f (13 * i + 6),
    f (13 * i + 7) ||| f (13 * i + 8), f (13 * i + 9) ||| f (13 * i + 10), f (13 * i + 11) ||| f (13 * i + 12)⟩

/-- Set `i` for fixed shifts: nine numbers each. -/
def setFixedAt (mexp : ℕ) (f : ℕ → BitVec 32) (i : ℕ) : Par :=
  ⟨(f (9 * i)).toNat % (mexp / 128 - 1) + 1, 19, 1, 7, 1, f (9 * i + 1) ||| f (9 * i + 2), f (9 * i + 3) ||| f (9 * i + 4),
    f (9 * i + 5) ||| f (9 * i + 6), f (9 * i + 7) ||| f (9 * i + 8)⟩

/-- A new object with these parameters, seeded with 1, has a component of dimension `mexp`: the lowest bit of its outputs
satisfies a recurrence whose least polynomial has an irreducible factor of degree `mexp`. -/
def Good (mexp : ℕ) (p : Par) : Prop := HasLarge mexp (seed (mk32 1 0 0 0) (ctorPar mexp p 0 0 0 0))

/-- What a run with `count` lines to print prints, if `sets i` is the set number `i` of its source: the good sets in their order,
none left out; unless it finds none among `100 * mexp` and gives up. -/
def PrintsSets (mexp : ℕ) (sets : ℕ → Par) (count : ℕ) (o : Outcome) : Prop :=
  ∃ idx k lines, Picks (fun i => Good mexp (sets i)) (mexp * 100) 0 idx k ∧ lines.map (fun l => l.param) = idx.map sets ∧
    (o = .done lines ∧ idx.length = count ∨
      o = .failed lines ∧ idx.length < count ∧ TakesNone (fun i => Good mexp (sets i)) (mexp * 100) k)

/-! ### Proof -/

theorem setAt_eq (f : ℕ → BitVec 32) (i : ℕ) : cand (mexp / 128 + 1) (from_ f (13 * i)) = setAt mexp f i := by
  unfold cand setAt from_
  rw [show mexp / 128 + 1 - 2 = mexp / 128 - 1 by omega]
  rfl

theorem setFixedAt_eq (f : ℕ → BitVec 32) (i : ℕ) :
    candFixed (mexp / 128 + 1) (from_ f (9 * i)) = setFixedAt mexp f i := by
  unfold candFixed setFixedAt from_
  rw [show mexp / 128 + 1 - 2 = mexp / 128 - 1 by omega]
  rfl

theorem good_iff {su : St → (ℕ → BitVec 32) → Option (St × (ℕ → BitVec 32))} (h1 : 256 ≤ mexp) {s : St}
    (hs : Inv1 (mexp / 128 + 1) mexp s) :
    Search.HasLarge (dOps (rops (mexp / 128 + 1) mexp) su (seed getOne)) (Inv1 (mexp / 128 + 1) mexp) (fun s => s.param)
      mexp s.param ↔ Good mexp s.param := by
  have hc : Inv1 (mexp / 128 + 1) mexp (ctorPar mexp s.param 0 0 0 0) :=
    ⟨(ctorPar_inv h1 hs.ok hs.pos_pos hs.pos _ _ _ _).1, rfl, rfl, rfl, rfl⟩
  have hb : ∀ t, Inv1 (mexp / 128 + 1) mexp t → t.param = s.param →
      Search.bitAt (rops (mexp / 128 + 1) mexp).toGenOps (seed getOne t) 0 =
      Search.bitAt (ops (mexp / 128 + 1)) (seed getOne (ctorPar mexp s.param 0 0 0 0)) 0 := fun t ht hp => by
    funext i
    have := seed_out1 ht hc hp i
    unfold Search.bitAt
    rw [this]
    rfl
  unfold Good HasLarge Search.HasLarge
  rw [one_eq]
  constructor
  · rintro ⟨t, q, g, t1, t2, t3, t4, t5, t6⟩
    have t3' : IsSeqMinpoly q (Search.bitAt (rops (mexp / 128 + 1) mexp).toGenOps (seed getOne t) 0) := t3
    rw [hb t t1 t2] at t3'
    exact ⟨g, q, t4, t5, t3', t6⟩
  · rintro ⟨g, q, t4, t5, t3, t6⟩
    refine ⟨s, q, g, hs, rfl, ?_, t4, t5, t6⟩
    show IsSeqMinpoly q (Search.bitAt (rops (mexp / 128 + 1) mexp).toGenOps (seed getOne s) 0)
    rw [hb s hs rfl]
    exact t3

theorem dcLoop_sets (hm : MinPolySeqSpec mps) (hK : KernelSpec kernel)
    {su : St → (ℕ → BitVec 32) → Option (St × (ℕ → BitVec 32))} (hsu : SetUpOK (mexp / 128 + 1) su) {w : ℕ}
    {cd : (ℕ → BitVec 32) → Par}
    (hD : Draws (dOps (rops (mexp / 128 + 1) mexp) su (seed getOne)) (Inv0 (mexp / 128 + 1) mexp) (Inv1 (mexp / 128 + 1) mexp)
      (Kept (mexp / 128 + 1)) (fun s => s.param) w cd) (hprime : (2 ^ mexp - 1).Prime)
    (h1 : 256 ≤ mexp) (h2 : mexp % 128 ≠ 0) (h3 : mexp < 2 ^ 30) {fuel : ℕ} (hfuel : (mexp / 128 + 1) * 128 < fuel) (J : Junk)
    (f : ℕ → BitVec 32) (c k : ℕ) (st : RSt St (ℕ → BitVec 32)) (hst : Inv0 (mexp / 128 + 1) mexp st.rand)
    (hsrc : st.src = from_ f (w * k)) (out : List Line) :
    ∃ idx k' new, Picks (fun i => Good mexp (cd (from_ f (w * i)))) (mexp * 100) k idx k' ∧
      new.map (fun l => l.param) = idx.map (fun i => cd (from_ f (w * i))) ∧
      (dcLoop mps kernel su fuel J mexp c st out = .done (out.reverse ++ new) ∧ idx.length = c ∨
        dcLoop mps kernel su fuel J mexp c st out = .failed (out.reverse ++ new) ∧ idx.length < c ∧
          TakesNone (fun i => Good mexp (cd (from_ f (w * i)))) (mexp * 100) k') := by
  have F := family (n := mexp / 128 + 1) (mexp := mexp) (by omega) hsu
  induction c generalizing st out k with
  | zero => exact ⟨[], k, [], rfl, rfl, .inl ⟨by rw [List.append_nil]; rfl, rfl⟩⟩
  | succ c ih =>
    have hne : ∀ s src, Inv0 (mexp / 128 + 1) mexp s → su s src ≠ none := by
      intro s src hs
      obtain ⟨p, f', e1, -⟩ := hsu s src hs.size
      rw [e1]
      simp
    obtain ⟨b, st', i1, i2, -, -, i5⟩ := rStart_red hm F (by show 1 ≤ mexp; omega) hne (mexp * 100) st hst
    have i1' : rStart mps (dOps (rops (mexp / 128 + 1) mexp) su (seed getOne)) mexp (mexp * 100) st = .ret b st' := i1
    obtain ⟨f1, f2⟩ := Anni.rStart_first (R := rops (mexp / 128 + 1) mexp) hm F (by show 1 ≤ mexp; omega)
      (by show (mexp / 128 + 1) * 128 < 2 * mexp; omega) hD st hst hst.size (mexp * 100)
    have hfrom : ∀ j, from_ st.src (w * j) = from_ f (w * (k + j)) := fun j => by rw [hsrc, from_from, Nat.mul_add]
    have hq : ∀ j, Search.HasLarge (dOps (rops (mexp / 128 + 1) mexp) su (seed getOne)) (Inv1 (mexp / 128 + 1) mexp)
        (fun s => s.param) mexp (cd (from_ st.src (w * j))) ↔ Good mexp (cd (from_ f (w * (k + j)))) := fun j => by
      obtain ⟨s', d1, -, d3⟩ := hD.draw st.rand (from_ st.src (w * j)) hst hst.size
      have hs' := F.setUp_inv _ _ _ _ hst d1
      have d3' : s'.param = cd (from_ st.src (w * j)) := d3
      rw [← hfrom, ← d3']
      exact good_iff h1 hs'
    rw [dcLoop, i1']
    rcases takes_or (fun i => Good mexp (cd (from_ f (w * i)))) (mexp * 100) k with ⟨m, hm'⟩ | hno
    · obtain ⟨m1, m2, m3, m4⟩ := id hm'
      obtain ⟨st2, j1, j2, -, j4, -⟩ := f1 (m - k) (by show m - k < mexp * 100; omega)
        ((hq _).2 (by rw [show k + (m - k) = m by omega]; exact m3)) fun i hi hQ => m4 (k + i) (by omega) (by omega) ((hq i).1 hQ)
      have j1' : rStart mps (dOps (rops (mexp / 128 + 1) mexp) su (seed getOne)) mexp (mexp * 100) st = .ret true st2 := j1
      rw [i1'] at j1'
      injection j1' with e1 e2
      subst e1 e2
      have j2' : st'.rand.param = cd (from_ st.src (w * (m - k))) := j2
      rw [hfrom, show k + (m - k) = m by omega] at j2'
      rw [hfrom, show k + (m - k + 1) = m + 1 by omega] at j4
      obtain ⟨l, g', q1, q2, -, q4⟩ := measure_good hm hK hprime h1 h2 h3 hfuel J (i5 rfl)
      dsimp only
      rw [q1]
      dsimp only
      obtain ⟨idx, k', new, r1, r2, r3⟩ := ih (m + 1) { st' with rand := g' } (F.weak _ q2) j4 (l :: out)
      refine ⟨m :: idx, k', l :: new, ⟨hm', r1⟩, ?_, ?_⟩
      · rw [List.map_cons, List.map_cons, r2, q4, j2']
      · rw [List.reverse_cons, List.append_assoc, List.singleton_append] at r3
        rw [List.length_cons]
        rcases r3 with ⟨r3, r4⟩ | ⟨r3, r4, r5⟩
        · exact .inl ⟨r3, by omega⟩
        · exact .inr ⟨r3, by omega, r5⟩
    · obtain ⟨st2, j1, -⟩ := f2 fun i hi hQ => hno (k + i) (by omega) (by
        have : i < mexp * 100 := hi
        omega) ((hq i).1 hQ)
      have j1' : rStart mps (dOps (rops (mexp / 128 + 1) mexp) su (seed getOne)) mexp (mexp * 100) st = .ret false st2 := j1
      rw [i1'] at j1'
      injection j1' with e1 e2
      subst e1
      exact ⟨[], k, [], rfl, rfl, .inr ⟨by rw [List.append_nil], by simp, hno⟩⟩

/-- **C121 for `sfmtdc`.** -/
theorem dcSearch_sets (hm : MinPolySeqSpec mps) (hK : KernelSpec kernel) (hmexp : mexp ∈ allowedMexp) {fuel : ℕ}
    (hfuel : (mexp / 128 + 1) * 128 < fuel) (J : Junk) (count : ℕ) (f : ℕ → BitVec 32) :
    PrintsSets mexp (setAt mexp f) count (dcSearch mps kernel fuel J mexp count f) := by
  obtain ⟨h1, h2, h3, h4, h5⟩ := allowed mexp hmexp
  have := dcLoop_sets hm hK (setUpOK (by omega) (by omega)) (draws (by omega) (by omega)) (Mexp.table_prime mexp h4 h5) h1 h2 h3
    hfuel J f count 0 ⟨ctor mexp J.state, f, 0, 0, 0⟩ (ctor_inv0 J.state) (by rw [Nat.mul_zero, from_zero]) []
  simp only [setAt_eq] at this
  exact this

/-- **C121 for `sfmtdcfixed`.** -/
theorem dcFixed_sets (hm : MinPolySeqSpec mps) (hK : KernelSpec kernel) (hmexp : mexp ∈ allowedMexp) {fuel : ℕ}
    (hfuel : (mexp / 128 + 1) * 128 < fuel) (J : Junk) (count : ℕ) (f : ℕ → BitVec 32) :
    PrintsSets mexp (setFixedAt mexp f) count (dcFixed mps kernel fuel J mexp count f) := by
  obtain ⟨h1, h2, h3, h4, h5⟩ := allowed mexp hmexp
  have := dcLoop_sets hm hK (setUpFixedOK (by omega) (by omega)) (draws_fixed (by omega) (by omega)) (Mexp.table_prime mexp h4 h5)
    h1 h2 h3 hfuel J f count 0 ⟨ctor mexp J.state, f, 0, 0, 0⟩ (ctor_inv0 J.state) (by rw [Nat.mul_zero, from_zero]) []
  simp only [setFixedAt_eq] at this
  exact this

end MTT.SFMT
