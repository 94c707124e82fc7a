import Verif.Samples.FirstProps
import Verif.Search.Picks

/-!
# C121: which parameter sets `dSFMTdc` prints
-/

namespace MTT.DSFMT

open Polynomial PIS Search Anni Parity W128

variable {n mexp : ℕ} {mps : MPS} {kernel : KernelFn} {xgcd : XgcdFn}

/-! ### Specification -/

/-- Set `i` of the random numbers `f`: six numbers each, five if `sl1` is fixed. -/
def setAt (n : ℕ) (fixedSL1 : Option ℕ) (f : ℕ → BitVec 64) (i : ℕ) : Par :=
  match fixedSL1 with
  | none => ⟨(f (6 * i)).toNat % (n - 2) + 1, (f (6 * i + 1)).toNat % 51 + 1,
      (f (6 * i + 2) ||| f (6 * i + 3)) &&& 0x000fffffffffffff, (f (6 * i + 4) ||| f (6 * i + 5)) &&& 0x000fffffffffffff⟩
  | some v => ⟨(f (5 * i)).toNat % (n - 2) + 1, v, (f (5 * i + 1) ||| f (5 * i + 2)) &&& 0x000fffffffffffff,
      (f (5 * i + 3) ||| f (5 * i + 4)) &&& 0x000fffffffffffff⟩

/-- A new object with these parameters, seeded with 1, has a component of dimension `mexp`: the lowest bit of its outputs
satisfies a recurrence whose least polynomial has an irreducible factor of degree `mexp`. -/
def Good (n mexp : ℕ) (p : Par) : Prop := HasLarge n mexp (seed (mk32 1 0 0 0) (ctorPar mexp p 0 0 0 0))

/-- What a run with `count` lines to print prints, if `sets i` is the set number `i` of its source: the good sets in their order,
none left out; unless it finds none among `100 * mexp` and gives up. -/
def PrintsSets (n mexp : ℕ) (sets : ℕ → Par) (count : ℕ) (o : Outcome) : Prop :=
  ∃ idx k lines, Picks (fun i => Good n mexp (sets i)) (mexp * 100) 0 idx k ∧ lines.map (fun l => l.param) = idx.map sets ∧
    (o = .done lines ∧ idx.length = count ∨
      o = .failed lines ∧ idx.length < count ∧ TakesNone (fun i => Good n mexp (sets i)) (mexp * 100) k)

/-! ### Proof -/

theorem setAt_eq (sl : Option ℕ) (f : ℕ → BitVec 64) (i : ℕ) : cand n sl (from_ f (takes sl * i)) = setAt n sl f i := by
  cases sl <;> rfl

theorem good_iff (h1 : 336 ≤ mexp) (h3 : mexp < 2 ^ 30) (hn : (mexp - 128) / 104 + 1 = n) {s : St} (hs : Inv1 n mexp s) :
    Search.HasLarge (dOps (rops n mexp) setUp (seed getOne)) (Inv1 n mexp) (fun s => s.param) mexp s.param ↔
      Good n mexp s.param := by
  have hc : Inv1 n mexp (ctorPar mexp s.param 0 0 0 0) :=
    gen_inv h1 hn (l := ⟨mexp, s.param, 0, 0, 0, 0⟩) rfl hs.par
  have hb : ∀ t, Inv1 n mexp t → t.param = s.param →
      Search.bitAt (rops n mexp).toGenOps (seed getOne t) 0 =
      Search.bitAt (ops n) (seed getOne (ctorPar mexp s.param 0 0 0 0)) 0 := fun t ht hp => by
    funext i
    have := (draws (n := n) (mexp := mexp) (by omega) (by omega) none).seed_out t _ ht hc hp i
    have this' : outAt (rops n mexp).toGenOps (seed getOne t) i =
      outAt (rops n mexp).toGenOps (seed getOne (ctorPar mexp s.param 0 0 0 0)) i := this
    unfold Search.bitAt
    rw [this']
    rfl
  unfold Good HasLarge Search.HasLarge
  rw [one_eq]
  constructor
  · rintro ⟨t, q, g, t1, t2, t3, t4, t5, t6⟩
    have t3' : IsSeqMinpoly q (Search.bitAt (rops n mexp).toGenOps (seed getOne t) 0) := t3
    rw [hb t t1 t2] at t3'
    exact ⟨g, q, t4, t5, t3', t6⟩
  · rintro ⟨g, q, t4, t5, t3, t6⟩
    refine ⟨s, q, g, hs, rfl, ?_, t4, t5, t6⟩
    show IsSeqMinpoly q (Search.bitAt (rops n mexp).toGenOps (seed getOne s) 0)
    rw [hb s hs rfl]
    exact t3

theorem dcLoop_sets (hm : MinPolySeqSpec mps) (hK : KernelSpec kernel) (hX : XgcdSpec xgcd) (sl : Option ℕ)
    (hprime : (2 ^ mexp - 1).Prime) (h1 : 336 ≤ mexp) (h3 : mexp < 2 ^ 30) (hn : (mexp - 128) / 104 + 1 = n) {fuel : ℕ}
    (hfuel : n * 104 + 128 < fuel) (J : Junk) (f : ℕ → BitVec 64) (c k : ℕ) (st : RSt St (ℕ → BitVec 64))
    (hst : Inv0 n mexp st.rand) (hsl : Kept n sl st.rand) (hsrc : st.src = from_ f (takes sl * k)) (out : List Line) :
    ∃ idx k' new, Picks (fun i => Good n mexp (cand n sl (from_ f (takes sl * i)))) (mexp * 100) k idx k' ∧
      new.map (fun l => l.param) = idx.map (fun i => cand n sl (from_ f (takes sl * i))) ∧
      (dcLoop mps kernel xgcd fuel J mexp c st out = .done (out.reverse ++ new) ∧ idx.length = c ∨
        dcLoop mps kernel xgcd fuel J mexp c st out = .failed (out.reverse ++ new) ∧ idx.length < c ∧
          TakesNone (fun i => Good n mexp (cand n sl (from_ f (takes sl * i)))) (mexp * 100) k') := by
  have F := family (n := n) (mexp := mexp) (by omega) (by omega)
  have F' := F.and (Q := fun p => p.pos1 + 2 ≤ n) (setUp_pos (by omega) (by omega))
  have hD := draws (n := n) (mexp := mexp) (by omega) (by omega) sl
  induction c generalizing st out k with
  | zero => exact ⟨[], k, [], rfl, rfl, .inl ⟨by rw [List.append_nil]; rfl, rfl⟩⟩
  | succ c ih =>
    have hne : ∀ s src, Inv0 n mexp s → setUp s src ≠ none := by
      intro s src hs
      obtain ⟨p, e1, -⟩ := setUp_spec (n := n) (by omega) (by omega) hs.size hs.fixed src
      unfold setUp
      rw [e1]
      simp
    obtain ⟨b, st', i1, i2, -, -, i5⟩ := rStart_red hm F' (by show 1 ≤ mexp; omega) hne (mexp * 100) st hst
    have i1' : rStart mps (dOps (rops n mexp) setUp (seed getOne)) mexp (mexp * 100) st = .ret b st' := i1
    obtain ⟨f1, f2⟩ := Anni.rStart_first (R := rops n mexp) hm F (by show 1 ≤ mexp; omega)
      (by show n * 104 + 128 < 2 * mexp; omega) hD st hst hsl (mexp * 100)
    have hfrom : ∀ j, from_ st.src (takes sl * j) = from_ f (takes sl * (k + j)) := fun j => by rw [hsrc, from_from, Nat.mul_add]
    have hq : ∀ j, Search.HasLarge (dOps (rops n mexp) setUp (seed getOne)) (Inv1 n mexp)
        (fun s => s.param) mexp (cand n sl (from_ st.src (takes sl * j))) ↔
        Good n mexp (cand n sl (from_ f (takes sl * (k + j)))) := fun j => by
      obtain ⟨s', d1, -, d3⟩ := hD.draw st.rand (from_ st.src (takes sl * j)) hst hsl
      have hs' := F.setUp_inv _ _ _ _ hst d1
      have d3' : s'.param = cand n sl (from_ st.src (takes sl * j)) := d3
      rw [← hfrom, ← d3']
      exact good_iff h1 h3 hn hs'
    rw [dcLoop, hn, i1']
    rcases takes_or (fun i => Good n mexp (cand n sl (from_ f (takes sl * i)))) (mexp * 100) k with ⟨m, hm'⟩ | hno
    · obtain ⟨m1, m2, m3, m4⟩ := id hm'
      obtain ⟨st2, j1, j2, -, j4, -, j6⟩ := f1 (m - k) (by show m - k < mexp * 100; omega)
        ((hq _).2 (by rw [show k + (m - k) = m by omega]; exact m3)) fun i hi hQ => m4 (k + i) (by omega) (by omega) ((hq i).1 hQ)
      have j1' : rStart mps (dOps (rops n mexp) setUp (seed getOne)) mexp (mexp * 100) st = .ret true st2 := j1
      rw [i1'] at j1'
      injection j1' with e1 e2
      subst e1 e2
      have j2' : st'.rand.param = cand n sl (from_ st.src (takes sl * (m - k))) := j2
      rw [hfrom, show k + (m - k) = m by omega] at j2'
      rw [hfrom, show k + (m - k + 1) = m + 1 by omega] at j4
      obtain ⟨l, g', q1, q2, -, q4, q5⟩ := measure_good hm hK hX hprime h1 h3 hn hfuel J ((i5 rfl).mono fun _ h => h.1)
        (i5 rfl).inv.2
      rw [Prod.mk.injEq] at q5
      dsimp only
      rw [q1]
      dsimp only
      obtain ⟨idx, k', new, r1, r2, r3⟩ := ih (m + 1) { st' with rand := g' } (F.weak _ q2)
        ⟨q2.size, by rw [← j6.2, q5.1, q5.2]⟩ j4 (l :: out)
      refine ⟨m :: idx, k', l :: new, ⟨hm', r1⟩, ?_, ?_⟩
      · rw [List.map_cons, List.map_cons, r2, q4, j2']
      · rw [List.reverse_cons, List.append_assoc, List.singleton_append] at r3
        rw [List.length_cons]
        rcases r3 with ⟨r3, r4⟩ | ⟨r3, r4, r5⟩
        · exact .inl ⟨r3, by omega⟩
        · exact .inr ⟨r3, by omega, r5⟩
    · obtain ⟨st2, j1, -⟩ := f2 fun i hi hQ => hno (k + i) (by omega) (by
        have : i < mexp * 100 := hi
        omega) ((hq i).1 hQ)
      have j1' : rStart mps (dOps (rops n mexp) setUp (seed getOne)) mexp (mexp * 100) st = .ret false st2 := j1
      rw [i1'] at j1'
      injection j1' with e1 e2
      subst e1
      exact ⟨[], k, [], rfl, rfl, .inr ⟨by rw [List.append_nil], by simp, hno⟩⟩

/-- **C121 for `dSFMTdc`**, with and without a fixed shift. -/
theorem dcSearch_sets (hm : MinPolySeqSpec mps) (hK : KernelSpec kernel) (hX : XgcdSpec xgcd)
    (hmexp : mexp ∈ allowedMexp) {fixedSL1 : Option ℕ} (hfix : ∀ x ∈ fixedSL1, 1 ≤ x ∧ x < 64) {fuel : ℕ}
    (hfuel : ((mexp - 128) / 104 + 1) * 104 + 128 < fuel) (J : Junk) (count : ℕ) (f : ℕ → BitVec 64) :
    PrintsSets ((mexp - 128) / 104 + 1) mexp (setAt ((mexp - 128) / 104 + 1) fixedSL1 f) count
      (dcSearch mps kernel xgcd fuel J mexp count fixedSL1 f) := by
  obtain ⟨h1, h3, h4, h5⟩ := allowed mexp hmexp
  have := dcLoop_sets hm hK hX fixedSL1 (Mexp.table_prime mexp h4 h5) h1 h3 rfl hfuel J f count 0
    ⟨start mexp J.state fixedSL1, f, 0, 0, 0⟩ (start_inv0 J.state hfix) (by cases fixedSL1 <;> exact ⟨rfl, rfl⟩)
    (by rw [Nat.mul_zero, from_zero]) []
  simp only [setAt_eq] at this
  exact this

end MTT.DSFMT
