import Verif.Samples.FirstProps
import Verif.Samples.RMTDCProps
import Verif.Search.Picks

/-!
# C121: which parameter sets `rmt64dc` prints
-/

namespace MTT.Search

open Polynomial PIS

variable {σ α P S : Type} {w : ℕ} [AddCommGroup S] [Module (ZMod 2) S]
  [Module.Finite (ZMod 2) S] {D : SearchOps σ (ℕ → α) w} {Inv K : σ → Prop} {par : σ → P} {den : σ → S}
  {T : P → S →ₗ[ZMod 2] S} {O : P → S →ₗ[ZMod 2] V} {mps : MPS} {c : ℕ} {cand : (ℕ → α) → P}

/-- The loop that repeats `start(1000 * mexp)`. -/
theorem rFindLoop_first (hm : MinPolySeqSpec mps) (F : Family D Inv par den T O) {mexp : ℕ} (hmexp : 1 ≤ mexp)
    (hbig : D.gen.bitSize < 2 * mexp) (hD : Draws D Inv Inv K par c cand) (tries fuel : ℕ) (st : RSt σ (ℕ → α))
    (hinv : Inv st.rand) (hK : K st.rand) :
    (∀ m < fuel * tries, HasLarge D Inv par mexp (cand (from_ st.src (c * m))) →
      (∀ i < m, ¬ HasLarge D Inv par mexp (cand (from_ st.src (c * i)))) →
      ∃ st', rFindLoop mps D mexp tries fuel st = some (.ret true st') ∧ par st'.rand = cand (from_ st.src (c * m)) ∧
        st'.src = from_ st.src (c * (m + 1))) ∧
    ((∀ i < fuel * tries, ¬ HasLarge D Inv par mexp (cand (from_ st.src (c * i)))) →
      rFindLoop mps D mexp tries fuel st = none) := by
  induction fuel generalizing st with
  | zero => exact ⟨fun m h => absurd h (by omega), fun _ => rfl⟩
  | succ fuel ih =>
    obtain ⟨h1, h2⟩ := rStart_first hm F hmexp hbig hD st hinv hK tries
    have hmul : (fuel + 1) * tries = tries + fuel * tries := by rw [Nat.succ_mul, Nat.add_comm]
    have hsh : ∀ i, from_ (from_ st.src (c * tries)) (c * i) = from_ st.src (c * (tries + i)) := fun i => by
      rw [from_from, Nat.mul_add]
    constructor
    · intro m hlt hA hno
      by_cases hmt : m < tries
      · obtain ⟨st', j1, j2, -, j4, -⟩ := h1 m hmt hA hno
        exact ⟨st', by rw [rFindLoop, j1], j2, j4⟩
      · obtain ⟨st1, j1, -, j3, j4, j5⟩ := h2 fun i hi => hno i (by omega)
        obtain ⟨k, rfl⟩ : ∃ k, m = tries + k := ⟨m - tries, by omega⟩
        obtain ⟨st', e1, e2, e3⟩ := (ih st1 j4 j5).1 k (by omega) (by rw [j3, hsh]; exact hA) fun i hi => by
          rw [j3, hsh]
          exact hno _ (by omega)
        rw [j3, hsh] at e2 e3
        exact ⟨st', by rw [rFindLoop, j1]; exact e1, e2, e3⟩
    · intro hno
      obtain ⟨st1, j1, -, j3, j4, j5⟩ := h2 fun i hi => hno i (by omega)
      rw [rFindLoop, j1]
      exact (ih st1 j4 j5).2 fun i hi => by
        rw [j3, hsh]
        exact hno _ (by omega)

end MTT.Search

namespace MTT.RMT

open Polynomial PIS Search Temper Parity Text

variable {mexp : ℕ} {mps : MPS} {kernel : KernelFn} {one : ℕ → Option (BitVec 64)}

/-! ### Specification -/

/-- Set `i` of the random numbers `f`: `pos` and `mata`. -/
def setAt (mexp : ℕ) (f : ℕ → BitVec 64) (i : ℕ) : ℕ × BitVec 64 := ((f (2 * i)).toNat % (mexp / 64 + 1), f (2 * i + 1))

/-- A new object with these parameters and tempering masks, seeded with 1, has a component of dimension `mexp`: the lowest bit of
its outputs satisfies a recurrence whose least polynomial has an irreducible factor of degree `mexp`. -/
def Good (mexp : ℕ) (maskb maskc : BitVec 64) (p : ℕ × BitVec 64) : Prop :=
  ∃ g q : (ZMod 2)[X], Irreducible g ∧ g.natDegree = mexp ∧
    IsSeqMinpoly q (Search.bitAt (ops (mexp / 64 + 1)) (ctorPar mexp p.1 p.2 maskb maskc 1 fun _ => 0) 0) ∧ g ∣ q

/-- How many sets are looked at with this fuel. -/
def limit (fuel mexp : ℕ) : ℕ := fuel * (1000 * ((mexp / 64 + 1) * 64))

/-- The lines printed from set `k` on, if the object has the masks `b`, `c`: each has the first good set behind the one before it,
where good is meant with the masks of the line before.  Afterwards set `k'` is next and the masks are `b'`, `c'`. -/
def PrintsSets (lim mexp : ℕ) (f : ℕ → BitVec 64) : ℕ → BitVec 64 → BitVec 64 → List Line → ℕ → BitVec 64 → BitVec 64 → Prop
  | k, b, c, [], k', b', c' => k' = k ∧ b' = b ∧ c' = c
  | k, b, c, l :: L, k', b', c' => ∃ m, Takes (fun i => Good mexp b c (setAt mexp f i)) lim k m ∧
      (l.param.pos, l.param.mata) = setAt mexp f m ∧ PrintsSets lim mexp f (m + 1) l.param.maskb l.param.maskc L k' b' c'

/-- The lines printed. -/
def Ends.printed : Ends → List Line
  | .normal L => L
  | .shift L => L
  | .other L => L

/-! ### Proof -/

theorem good_iff {p : Par} (hpos : p.pos < mexp / 64 + 1) (hrev : p.rev = false) :
    Search.HasLarge (searchOps mexp) (SInv mexp) par mexp p ↔ Good mexp p.maskb p.maskc (p.pos, p.mata) := by
  obtain ⟨s, hs⟩ : ∃ s : St, s = ⟨mexp, mexp / 64 + 1, false, p.pos, p.mata, 0, p.maskb, p.maskc, fun _ => 0, 0⟩ := ⟨_, rfl⟩
  have hi : SInv mexp s := by
    subst hs
    exact ⟨⟨rfl, by show 0 < mexp / 64 + 1; omega, hpos⟩, rfl, rfl⟩
  have hp : par s = p := by
    subst hs
    show Par.mk p.pos p.mata p.maskb p.maskc false = p
    rw [← hrev]
  have he : ctorPar mexp p.pos p.mata p.maskb p.maskc 1 (fun _ => 0) = (searchOps mexp).seedOne s := by
    rw [hs]; rfl
  unfold Search.HasLarge Good
  dsimp only
  rw [he]
  constructor
  · rintro ⟨t, q, g, t1, t2, t3, t4, t5, t6⟩
    have hb : Search.bitAt (searchOps mexp).gen ((searchOps mexp).seedOne t) 0 =
        Search.bitAt (searchOps mexp).gen ((searchOps mexp).seedOne s) 0 := by
      funext i
      have := (draws mexp 0 0).seed_out t s t1 hi (t2.trans hp.symm) i
      unfold Search.bitAt
      rw [this]
    rw [hb] at t3
    exact ⟨g, q, t4, t5, t3, t6⟩
  · rintro ⟨g, q, t4, t5, t3, t6⟩
    exact ⟨s, q, g, hi, hp, t3, t4, t5, t6⟩

theorem printed_cons (l : Line) (e : Ends) : (Ends.cons l e).printed = l :: e.printed := by cases e <;> rfl

theorem printsSets_nil {lim k : ℕ} {f : ℕ → BitVec 64} {b c : BitVec 64} : PrintsSets lim mexp f k b c [] k b c := by
  unfold PrintsSets
  exact ⟨rfl, rfl, rfl⟩

theorem printsSets_cons {lim k m k' : ℕ} {f : ℕ → BitVec 64} {b c b' c' : BitVec 64} {t : St} {d : ℤ} {L : List Line}
    (h1 : Takes (fun i => Good mexp b c (setAt mexp f i)) lim k m) (h2 : (t.pos, t.mata) = setAt mexp f m)
    (h3 : PrintsSets lim mexp f (m + 1) (getParamString t).maskb (getParamString t).maskc L k' b' c') :
    PrintsSets lim mexp f k b c (⟨fieldsOf t, d⟩ :: L) k' b' c' := by
  have e1 : (fieldsOf t).maskb = (getParamString t).maskb := by unfold fieldsOf; dsimp only
  have e2 : (fieldsOf t).maskc = (getParamString t).maskc := by unfold fieldsOf; dsimp only
  have e3 : ((fieldsOf t).pos, (fieldsOf t).mata) = (t.pos, t.mata) := by unfold fieldsOf getParamString; dsimp only
  rw [PrintsSets]
  dsimp only
  rw [e1, e2, e3]
  exact ⟨m, h1, h2, h3⟩

/-- One call of `all.search`. -/
theorem allSearch_sets (hm : MinPolySeqSpec mps) (hmexp : mexp ∈ allowedMexp) (junk : BitVec 64)
    (veq : ℕ → ℕ) (fuel : ℕ) {g : St} (hg : SInv mexp { g with pos := 0 }) (f : ℕ → BitVec 64) (k : ℕ) :
    (∀ m, Takes (fun i => Good mexp g.maskb g.maskc (setAt mexp f i)) (limit fuel mexp) k m →
      ∃ r, allSearch mps kernel one junk veq fuel mexp g (from_ f (2 * k)) = some r ∧
        ∀ t src d, r = .found t src d → (t.pos, t.mata) = setAt mexp f m ∧ src = from_ f (2 * (m + 1)) ∧ SInv mexp t) ∧
    (TakesNone (fun i => Good mexp g.maskb g.maskc (setAt mexp f i)) (limit fuel mexp) k →
      allSearch mps kernel one junk veq fuel mexp g (from_ f (2 * k)) = none) := by
  obtain ⟨h65, hmod, -⟩ := allowed_ge mexp hmexp
  obtain ⟨tries, htr⟩ : ∃ tries, 1000 * ((mexp / 64 + 1) * 64) = tries + 1 := ⟨1000 * ((mexp / 64 + 1) * 64) - 1, by omega⟩
  have hcong : rFindLoop mps (searchOps mexp) mexp (1000 * ((mexp / 64 + 1) * 64)) fuel ⟨g, from_ f (2 * k), 0, 0, 0⟩ =
      rFindLoop mps (searchOps mexp) mexp (1000 * ((mexp / 64 + 1) * 64)) fuel
        ⟨{ g with pos := 0 }, from_ f (2 * k), 0, 0, 0⟩ := by
    rw [htr]
    have e : rTryOnce mps (searchOps mexp) mexp ⟨{ g with pos := 0 }, from_ f (2 * k), 0, 0, 0⟩ =
        rTryOnce mps (searchOps mexp) mexp ⟨g, from_ f (2 * k), 0, 0, 0⟩ := rfl
    cases fuel with
    | zero => rfl
    | succ fuel =>
      unfold rFindLoop rStart
      rw [e]
  obtain ⟨f1, f2⟩ := rFindLoop_first (mexp := mexp) hm (family mexp) (by omega)
    (by show (mexp / 64 + 1) * 64 < 2 * mexp; omega) (draws mexp g.maskb g.maskc) (1000 * ((mexp / 64 + 1) * 64)) fuel
    ⟨{ g with pos := 0 }, from_ f (2 * k), 0, 0, 0⟩ hg ⟨hg.inv.size, rfl, rfl, hg.rev⟩
  have hq : ∀ j, Search.HasLarge (searchOps mexp) (SInv mexp) par mexp
      (cand (mexp / 64 + 1) g.maskb g.maskc (from_ (from_ f (2 * k)) (2 * j))) ↔
      Good mexp g.maskb g.maskc (setAt mexp f (k + j)) := fun j => by
    rw [from_from, ← Nat.mul_add]
    exact good_iff (Nat.mod_lt _ (by omega)) rfl
  unfold allSearch
  dsimp only
  rw [hcong]
  constructor
  · rintro m ⟨m1, m2, m3, m4⟩
    unfold limit at m2
    obtain ⟨st, j1, j2, j3⟩ := f1 (m - k) (by omega)
      ((hq _).2 (by rw [show k + (m - k) = m by omega]; exact m3)) fun i hi hQ => m4 (k + i) (by omega) (by omega) ((hq i).1 hQ)
    rw [j1]
    dsimp only at j2 j3 ⊢
    rw [from_from, ← Nat.mul_add, show k + (m - k) = m by omega] at j2
    rw [from_from, ← Nat.mul_add, show k + (m - k + 1) = m + 1 by omega] at j3
    rw [htr] at j1
    obtain ⟨st2, e1, hst⟩ := rFind_inv hm (by omega) _ _ _ hg j1
    injection e1 with _ e1
    subst e1
    cases hp : searchParity one mexp kernel junk st.rand st.irreducible with
    | error e =>
      cases e with
      | shift => exact ⟨_, rfl, fun t src d h => by cases h⟩
      | other e => exact ⟨_, rfl, fun t src d h => by cases h⟩
    | ok q =>
      obtain ⟨v, rg⟩ := q
      dsimp only
      have hrg : rg = setParityValue v st.rand := by
        unfold searchParity at hp
        dsimp only at hp
        split at hp
        · cases hp
        · split at hp
          · cases hp
          · injection hp with hp
            injection hp with h1 h2
            rw [← h2, h1]
      subst hrg
      have hs : SInv mexp (setParityValue v st.rand) :=
        ⟨⟨hst.inv.inv.size, hst.inv.inv.index, hst.inv.inv.pos⟩, hst.inv.rev, hst.inv.mexp_eq⟩
      obtain ⟨t, d, e1, e2⟩ := after_spec hm veq hs h65 hst.irr hst.deg
      rw [e1]
      refine ⟨_, rfl, fun t' src' d' h => ?_⟩
      injection h with h1 h2 h3
      subst h1 h2
      refine ⟨?_, j3, e2.inv⟩
      have q1 : t.pos = st.rand.pos := e2.pos
      have q2 : t.mata = st.rand.mata := e2.mata
      rw [q1, q2]
      exact Prod.ext (congrArg Par.pos j2) (congrArg Par.mata j2)
  · intro hno
    rw [f2 fun i hi hQ => hno (k + i) (by omega) (by unfold limit; omega) ((hq i).1 hQ)]

theorem searchLines_sets (hm : MinPolySeqSpec mps) (hmexp : mexp ∈ allowedMexp) (junk : ℕ → BitVec 64) (veq : ℕ → ℕ)
    (fuel : ℕ) (f : ℕ → BitVec 64) (c : ℕ) : ∀ (g : St) (k : ℕ), SInv mexp { g with pos := 0 } →
    (∀ e, searchLines mps kernel one junk veq fuel mexp c g (from_ f (2 * k)) = some e →
      ∃ k' b' c', PrintsSets (limit fuel mexp) mexp f k g.maskb g.maskc e.printed k' b' c') ∧
    (searchLines mps kernel one junk veq fuel mexp c g (from_ f (2 * k)) = none →
      ∃ L k' b' c', L.length < c ∧ PrintsSets (limit fuel mexp) mexp f k g.maskb g.maskc L k' b' c' ∧
        TakesNone (fun i => Good mexp b' c' (setAt mexp f i)) (limit fuel mexp) k') := by
  induction c with
  | zero =>
    intro g k hg
    refine ⟨fun e h => ?_, fun h => by cases h⟩
    obtain rfl := Option.some.inj h
    exact ⟨k, _, _, printsSets_nil⟩
  | succ c ih =>
    intro g k hg
    obtain ⟨a1, a2⟩ := allSearch_sets (kernel := kernel) (one := one) hm hmexp (junk c) veq fuel hg f k
    unfold searchLines
    rcases takes_or (fun i => Good mexp g.maskb g.maskc (setAt mexp f i)) (limit fuel mexp) k with ⟨m, hm'⟩ | hno
    · obtain ⟨r, r1, r2⟩ := a1 m hm'
      rw [r1]
      cases r with
      | shift =>
        refine ⟨fun e h => ?_, fun h => by cases h⟩
        obtain rfl := Option.some.inj h
        exact ⟨k, _, _, printsSets_nil⟩
      | other =>
        refine ⟨fun e h => ?_, fun h => by cases h⟩
        obtain rfl := Option.some.inj h
        exact ⟨k, _, _, printsSets_nil⟩
      | found t src d =>
        obtain ⟨t1, rfl, t3⟩ := r2 t src d rfl
        dsimp only
        obtain ⟨b1, b2⟩ := ih (getParamString t) (m + 1) (getParamString_sinv t3)
        constructor
        · intro e h
          rw [Option.map_eq_some_iff] at h
          obtain ⟨e', he, rfl⟩ := h
          obtain ⟨k', b', c', hL⟩ := b1 e' he
          refine ⟨k', b', c', ?_⟩
          rw [printed_cons]
          exact printsSets_cons hm' t1 hL
        · intro h
          rw [Option.map_eq_none_iff] at h
          obtain ⟨L, k', b', c', hl, hL, hn⟩ := b2 h
          exact ⟨⟨fieldsOf t, d⟩ :: L, k', b', c', Nat.succ_lt_succ hl, printsSets_cons hm' t1 hL, hn⟩
    · rw [a2 hno]
      exact ⟨fun e h => (by cases h), fun _ => ⟨[], k, _, _, by simp, printsSets_nil, hno⟩⟩

/-- **C121 for `rmt64dc`.**  The sets of the lines printed are the good ones of the source in their order, none left out; and a run
that does not end within the fuel has got stuck behind such lines, since none of the next sets is good. -/
theorem rmtMain_sets (hm : MinPolySeqSpec mps) (hmexp : mexp ∈ allowedMexp) (junk : ℕ → BitVec 64)
    (veq : ℕ → ℕ) (fuel : ℕ) (count : ℤ) (junkPos : ℕ) (junkA : BitVec 64) (junkS f : ℕ → BitVec 64) :
    (∀ e, rmtMain mps kernel one junk veq fuel mexp count junkPos junkA junkS f = some e →
      ∃ k b c, PrintsSets (limit fuel mexp) mexp f 0 0 0 e.printed k b c) ∧
    (rmtMain mps kernel one junk veq fuel mexp count junkPos junkA junkS f = none →
      ∃ L k b c, L.length < count.toNat ∧ PrintsSets (limit fuel mexp) mexp f 0 0 0 L k b c ∧
        TakesNone (fun i => Good mexp b c (setAt mexp f i)) (limit fuel mexp) k) := by
  have := searchLines_sets (kernel := kernel) (one := one) hm hmexp junk veq fuel f count.toNat
    (ctor mexp 1 junkPos junkA junkS) 0 (ctor_sinv 1 junkPos junkA junkS)
  rw [Nat.mul_zero, from_zero] at this
  exact this

end MTT.RMT
