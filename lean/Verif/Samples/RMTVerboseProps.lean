import Verif.Samples.RMTVerbose
import Verif.Samples.RMTDCProps
import Verif.Samples.SearchTextProps
import Verif.Search.VerboseProps
import Verif.Search.VerboseExample

/-!
# C110 for `rmt64dc -v`
-/

namespace MTT.Verbose

variable {σ : Type}

/-- The generator that is left, changed by `f`. -/
def TRes.mapG (f : σ → σ) : TRes σ → TRes σ
  | .ok g d o => .ok (f g) d o
  | .table => .table
  | .undef => .undef

/-- `getParamString` is the last thing that happens to the generator. -/
theorem temperV_str (V : VOps σ) (vb : Bool) (v1 v2 : Bool → σ → Option (σ × Out)) (lsb2 noLsb : Bool) (t1 t2 : List Char)
    (veq : ℕ → ℕ) (g : σ) : temperV V vb v1 v2 lsb2 noLsb t1 t2 veq g =
      (temperV { V with str := fun g => (g, (V.str g).2) } vb v1 v2 lsb2 noLsb t1 t2 veq g).mapG
        (fun g => if vb then (V.str g).1 else g) := by
  have e1 : ∀ n q, tableText { V with str := fun g => (g, (V.str g).2) } n q = tableText V n q := fun _ _ => rfl
  have e2 : ∀ l t q g, lsbReport { V with str := fun g => (g, (V.str g).2) } l t q g = lsbReport V l t q g := fun _ _ _ _ => rfl
  unfold temperV
  simp only [e1, e2]
  generalize (if vb = true then (V.table veq g).map fun q => (q.1, tableText V [] q) else some (veq, [])) = a1
  cases a1 with
  | none => rfl
  | some a1 =>
  dsimp only
  generalize (if noLsb = true then some (g, []) else v2 vb g) = a2
  cases a2 with
  | none => rfl
  | some a2 =>
  dsimp only
  generalize (if vb = true ∧ noLsb = false then lsbReport V lsb2 t1 a1.1 a2.1 else some (a2.1, a1.1, [])) = a3
  cases a3 with
  | none => rfl
  | some a3 =>
  dsimp only
  cases v1 vb a3.1 with
  | none => rfl
  | some a4 =>
  dsimp only
  cases V.table a3.2.1 a4.1 with
  | none => rfl
  | some a5 => cases vb <;> rfl

open Polynomial Text Temper Search Parity

/-- `temperV_same` for a generator whose `getParamString` changes it: that happens after everything else. -/
theorem temperV_true {V : VOps σ} {v1 v2 : Bool → σ → Option (σ × Out)} {lsb2 : Bool} {st1 st2 : σ → Option σ}
    {delta : σ → Option ℤ} {Inv : σ → Prop}
    (H : Honest { V with str := fun g => (g, (V.str g).2) } v1 v2 lsb2 st1 st2 delta Inv) (noLsb : Bool) (t1 t2 : List Char)
    (veq : ℕ → ℕ) {g : σ} (hg : Inv g) :
    match temperQ st1 st2 delta noLsb g with
      | none => temperV V true v1 v2 lsb2 noLsb t1 t2 veq g = .undef
      | some (_, none) => temperV V true v1 v2 lsb2 noLsb t1 t2 veq g = .table
      | some (g', some d) => ∃ o veq1 veq2, MidLines V v1 v2 lsb2 noLsb t1 veq g g' o veq1 ∧ V.table veq1 g' = some (veq2, d) ∧
          temperV V true v1 v2 lsb2 noLsb t1 t2 veq g = .ok (V.str g').1 d (o ++ finalLines V t2 (V.str g').2 veq2 d) := by
  rw [temperV_str]
  have h := temperV_same H noLsb t1 t2 veq hg
  revert h
  cases temperQ st1 st2 delta noLsb g with
  | none => intro h; dsimp only at h ⊢; rw [h]; rfl
  | some q =>
    obtain ⟨g', d⟩ := q
    cases d with
    | none => intro h; dsimp only at h ⊢; rw [h]; rfl
    | some d =>
      intro h
      dsimp only at h ⊢
      obtain ⟨o, veq1, veq2, h1, h2, h3⟩ := h
      exact ⟨o, veq1, veq2, h1, h2, by rw [h3]; rfl⟩

/-- `temperV_quiet` for a generator whose `getParamString` changes it. -/
theorem temperV_false {V : VOps σ} {v1 v2 : Bool → σ → Option (σ × Out)} {lsb2 : Bool} {st1 st2 : σ → Option σ}
    {delta : σ → Option ℤ} {Inv : σ → Prop}
    (H : Honest { V with str := fun g => (g, (V.str g).2) } v1 v2 lsb2 st1 st2 delta Inv) (noLsb : Bool) (t1 t2 : List Char)
    (veq : ℕ → ℕ) (g : σ) :
    temperV V false v1 v2 lsb2 noLsb t1 t2 veq g = match temperQ st1 st2 delta noLsb g with
      | none => .undef
      | some (_, none) => .table
      | some (g', some d) => .ok g' d [] := by
  rw [temperV_str, temperV_quiet H]
  cases temperQ st1 st2 delta noLsb g with
  | none => rfl
  | some q =>
    obtain ⟨g', d⟩ := q
    cases d <;> rfl

end MTT.Verbose

namespace MTT.RMT

open Polynomial Text SearchText PIS Search Temper Parity Verbose

variable {n mexp : ℕ} {mps : MPS} {kernel : KernelFn} {one : ℕ → Option (BitVec 64)}

theorem setRev_inv {s : St} (hs : Inv n s) : Inv n (setReverse s) := ⟨hs.size, hs.index, hs.pos⟩

theorem resetRev_inv {s : St} (hs : Inv n s) : Inv n (resetReverse s) := ⟨hs.size, hs.index, hs.pos⟩

theorem pbp_reset (veq : ℕ → ℕ) (s : St) :
    partialBitPattern (temperOps veq n) st64 64 s = partialBitPattern (temperOps veq n) st64 64 (resetReverse s) := rfl

theorem table_sum (veq veq' : ℕ → ℕ) (g : St) : ((vops n).table veq' g).map Prod.snd = measure veq n 64 g := by
  have h := sum_any (ops n) Util.calc1posWrap64 g 64 (n * 64) (64 * (65 * (n * 64)) + 65) veq' veq
  have e1 : (vops n).table veq' g = match getAllEquidist (ops n) Util.calc1posWrap64 g 64 (n * 64) (64 * (65 * (n * 64)) + 65) veq'
    with | .ok r => some (r.veq, r.sum) | .error _ => none := rfl
  unfold measure
  rw [e1, show 64 * ((64 + 1) * (n * 64)) + 64 + 1 = 64 * (65 * (n * 64)) + 65 from rfl]
  revert h
  generalize getAllEquidist (ops n) Util.calc1posWrap64 g 64 (n * 64) (64 * (65 * (n * 64)) + 65) veq' = x
  generalize getAllEquidist (ops n) Util.calc1posWrap64 g 64 (n * 64) (64 * (65 * (n * 64)) + 65) veq = y
  intro h
  cases x <;> cases y <;> simpa [Except.toOption] using h

theorem pbp_keep (veq : ℕ → ℕ) {g g' : St} (hg : Inv n g) (h : partialBitPattern (temperOps veq n) st64 64 g = some g') :
    Inv n g' ∧ Inv n (setReverse g') ∧ resetReverse g' = g' := by
  rw [pbp_reset] at h
  obtain ⟨b, c, e⟩ := st_spec veq (resetRev_inv hg) rfl
  rw [e] at h
  injection h with h
  rw [← h]
  exact ⟨⟨hg.size, hg.index, hg.pos⟩, ⟨hg.size, hg.index, hg.pos⟩, rfl⟩

theorem honest (n : ℕ) (veq : ℕ → ℕ) : Honest { vops n with str := fun g => (g, ((vops n).str g).2) } (partialBitPatternV (temperOps veq n) st64 64)
    (partialBitPatternV (temperOps veq n) st64 64) false (partialBitPattern (temperOps veq n) st64 64)
    (partialBitPattern (temperOps veq n) st64 64) (measure veq n 64) (Inv n) where
  same1 vb g := partialBitPattern_same _ _ _ vb g
  same2 vb g := partialBitPattern_same _ _ _ vb g
  quiet1 g _ h := partialBitPattern_quiet _ _ _ g h
  quiet2 g _ h := partialBitPattern_quiet _ _ _ g h
  table veq' g := table_sum veq veq' g
  total g hg h := by
    obtain ⟨d, h1, -⟩ := measure_eq veq hg
    rw [h] at h1; cases h1
  keep1 g g' hg h := (pbp_keep veq hg h).1
  keep2 g g' hg h := pbp_keep veq hg h
  str _ _ := rfl

/-! ### The masks during the search for a recursion -/

/-- The masks of two objects agree. -/
def SameMasks (a b : St) : Prop := a.maskb = b.maskb ∧ a.maskc = b.maskc

theorem stateAt_masks (s : St) (m : ℕ) : SameMasks (stateAt (ops n) s m) s := by
  induction m with
  | zero => exact ⟨rfl, rfl⟩
  | succ m ih => exact ih

theorem rTry_masks (hm : MinPolySeqSpec mps) (h1 : 1 ≤ mexp) (st : RSt St (ℕ → BitVec 64)) (hs : SInv mexp st.rand) {b st'}
    (h : rTryOnce mps (searchOps mexp) mexp st = .ret b st') : SameMasks st'.rand st.rand ∧ SInv mexp st'.rand := by
  rcases rTryOnce_correct hm (family mexp) h1 st hs with ⟨h, -⟩ | ⟨r, src, st2, b2, g1, g2, -, -, g5, g6, -⟩
  · cases h
  · rw [h] at g2
    injection g2 with _ g2
    subst g2
    refine ⟨?_, g6⟩
    rw [g5]
    have := stateAt_masks (n := mexp / 64 + 1) (seed 1 r) (2 * ((mexp / 64 + 1) * 64))
    injection g1 with g1
    injection g1 with g1 _
    subst g1
    exact this

theorem rStart_masks (hm : MinPolySeqSpec mps) (h1 : 1 ≤ mexp) (k : ℕ) (st : RSt St (ℕ → BitVec 64)) (hs : SInv mexp st.rand) {b st'}
    (h : rStart mps (searchOps mexp) mexp k st = .ret b st') : SameMasks st'.rand st.rand ∧ SInv mexp st'.rand := by
  induction k generalizing st with
  | zero => injection h with _ h; subst h; exact ⟨⟨rfl, rfl⟩, hs⟩
  | succ k ih =>
    obtain ⟨b1, st1, e1, e2, -⟩ := rTry_spec hm h1 st hs
    have hk := rTry_masks hm h1 st hs e1
    rw [rStart, e1] at h
    cases b1 with
    | true => injection h with _ h; subst h; exact hk
    | false =>
      have := ih st1 e2 h
      exact ⟨⟨this.1.1.trans hk.1.1, this.1.2.trans hk.1.2⟩, this.2⟩

theorem rFind_masks (hm : MinPolySeqSpec mps) (h1 : 1 ≤ mexp) (tries fuel : ℕ) (st : RSt St (ℕ → BitVec 64))
    (hs : SInv mexp st.rand) {b st'} (h : rFindLoop mps (searchOps mexp) mexp tries fuel st = some (.ret b st')) :
    SameMasks st'.rand st.rand := by
  induction fuel generalizing st with
  | zero => cases h
  | succ fuel ih =>
    obtain ⟨b1, st1, e1, e2, -⟩ := rStart_spec hm h1 tries st hs
    have hk := (rStart_masks hm h1 tries st hs e1).1
    rw [rFindLoop, e1] at h
    cases b1 with
    | false =>
      have := ih st1 e2 h
      exact ⟨this.1.trans hk.1, this.2.trans hk.2⟩
    | true =>
      injection h with h
      injection h with _ h
      subst h
      exact hk

/-- The search for a recursion does not change the masks; the position before the first `setUpParam` does not matter. -/
theorem rFind_masks' (hm : MinPolySeqSpec mps) (h1 : 1 ≤ mexp) (tries fuel : ℕ) {g : St} (src : ℕ → BitVec 64)
    (hs : SInv mexp { g with pos := 0 }) {b st'}
    (h : rFindLoop mps (searchOps mexp) mexp (tries + 1) fuel ⟨g, src, 0, 0, 0⟩ = some (.ret b st')) :
    SameMasks st'.rand g := by
  have e : rTryOnce mps (searchOps mexp) mexp ⟨{ g with pos := 0 }, src, 0, 0, 0⟩ =
      rTryOnce mps (searchOps mexp) mexp ⟨g, src, 0, 0, 0⟩ := rfl
  have := rFind_masks (b := b) (st' := st') hm h1 (tries + 1) fuel ⟨{ g with pos := 0 }, src, 0, 0, 0⟩ hs (by
    rw [← h]
    cases fuel with
    | zero => rfl
    | succ fuel =>
      unfold rFindLoop
      have e2 : rStart mps (searchOps mexp) mexp (tries + 1) ⟨{ g with pos := 0 }, src, 0, 0, 0⟩ =
          rStart mps (searchOps mexp) mexp (tries + 1) ⟨g, src, 0, 0, 0⟩ := by
        unfold rStart
        rw [e]
      rw [e2])
  exact this

theorem clean_of_masks {a b : St} (h : SameMasks a b) (hb : getParamString b = b) : getParamString a = a := by
  have h1 := congrArg St.maskb hb
  have h2 := congrArg St.maskc hb
  unfold getParamString at h1 h2 ⊢
  dsimp only at h1 h2
  rw [h.1, h.2, h1, h2, ← h.1, ← h.2]

theorem ctor_clean (v : BitVec 64) (junkPos : ℕ) (junkA : BitVec 64) (junkS : ℕ → BitVec 64) :
    getParamString (ctor mexp v junkPos junkA junkS) = ctor mexp v junkPos junkA junkS := by
  have key : ∀ s : St, s.maskb = 0 → s.maskc = 0 → getParamString s = s := by
    intro s h1 h2
    have e1 : ((0 : BitVec 64) >>> 17) <<< 17 = 0 := by decide
    have e2 : ((0 : BitVec 64) >>> 37) <<< 37 = 0 := by decide
    unfold getParamString
    rw [h1, h2, e1, e2, ← h1]
    conv_lhs => rw [h1, ← h2]
    cases s
    simp_all
  exact key _ rfl rfl

theorem getParamString_twice (s : St) : getParamString (getParamString s) = getParamString s := by
  have h := clean_clean (rawOf s)
  have h1 := congrArg Fields.maskb h
  have h2 := congrArg Fields.maskc h
  unfold Fields.clean rawOf at h1 h2
  dsimp only at h1 h2
  unfold getParamString
  dsimp only
  rw [h1, h2]

theorem fieldsOf_clean (s : St) : fieldsOf (getParamString s) = fieldsOf s := by
  unfold fieldsOf
  rw [getParamString_twice]

/-! ### One search -/

/-- The result with the masks as they are printed. -/
def SRes.clean : SRes → SRes
  | .found g src d => .found (getParamString g) src d
  | .shift => .shift
  | .other => .other

/-- What a search with `-v` writes that leaves the object `t`: the lines "not found", the parameters `g` of the recursion (the object
before the tempering search is `g1`), the text `o` of the tempering, the parameters `t`, the table and the sum of the defects. -/
def Says (mps : MPS) (kernel : KernelFn) (one : ℕ → Option (BitVec 64)) (junk : BitVec 64) (veq : ℕ → ℕ)
    (c : List Char × List Char × List Char) (mexp : ℕ) (t : St) (d : ℤ) (out : Out) : Prop :=
  ∃ m count g f v g0 g1 t' o veq1 veq2,
    out = notFound m ++ foundLines c.1 count (paramString g).2 ++ o ++ finalLines (vops (mexp / 64 + 1)) c.2.2 (paramString t').2 veq2 d ∧
    m * (1000 * ((mexp / 64 + 1) * 64)) < count ∧ count ≤ (m + 1) * (1000 * ((mexp / 64 + 1) * 64)) ∧
    searchParity one mexp kernel junk g f = .ok (v, g0) ∧ reducedCopy mps (ops (mexp / 64 + 1)) g0 f = some g1 ∧
    Inv (mexp / 64 + 1) g1 ∧
    MidLines (vops (mexp / 64 + 1)) (partialBitPatternV (temperOps veq (mexp / 64 + 1)) st64 64)
      (partialBitPatternV (temperOps veq (mexp / 64 + 1)) st64 64) false false c.2.1 veq g1 t' o veq1 ∧
    (vops (mexp / 64 + 1)).table veq1 t' = some (veq2, d) ∧ t = getParamString t'

theorem after_temperQ (veq : ℕ → ℕ) (rg : St) (f : (ZMod 2)[X]) :
    afterParity mps (ops n) Util.calc1posWrap64 (partialBitPattern (temperOps veq n) st64 64)
        (partialBitPattern (temperOps veq n) st64 64) false (64 * (65 * (n * 64)) + 65) veq rg f = none ∧
      (reducedCopy mps (ops n) rg f).bind (temperQ (partialBitPattern (temperOps veq n) st64 64)
        (partialBitPattern (temperOps veq n) st64 64) (measure veq n 64) false) = none ∨
    (∃ e g, afterParity mps (ops n) Util.calc1posWrap64 (partialBitPattern (temperOps veq n) st64 64)
        (partialBitPattern (temperOps veq n) st64 64) false (64 * (65 * (n * 64)) + 65) veq rg f = some (.error e) ∧
      (reducedCopy mps (ops n) rg f).bind (temperQ (partialBitPattern (temperOps veq n) st64 64)
        (partialBitPattern (temperOps veq n) st64 64) (measure veq n 64) false) = some (g, none)) ∨
    ∃ g d, afterParity mps (ops n) Util.calc1posWrap64 (partialBitPattern (temperOps veq n) st64 64)
        (partialBitPattern (temperOps veq n) st64 64) false (64 * (65 * (n * 64)) + 65) veq rg f = some (.ok (g, d)) ∧
      (reducedCopy mps (ops n) rg f).bind (temperQ (partialBitPattern (temperOps veq n) st64 64)
        (partialBitPattern (temperOps veq n) st64 64) (measure veq n 64) false) = some (g, some d) := by
  unfold afterParity temperQ
  cases reducedCopy mps (ops n) rg f with
  | none => exact .inl ⟨rfl, rfl⟩
  | some a =>
    simp only [Bool.false_eq_true, if_false, Option.bind_some]
    cases partialBitPattern (temperOps veq n) st64 64 a with
    | none => exact .inl ⟨rfl, rfl⟩
    | some b =>
      simp only [Option.bind_some]
      cases partialBitPattern (temperOps veq n) st64 64 b with
      | none => exact .inl ⟨rfl, rfl⟩
      | some t =>
        right
        have hme : measure veq n 64 t = match getAllEquidist (ops n) Util.calc1posWrap64 t 64 (n * 64) (64 * (65 * (n * 64)) + 65) veq with
          | .ok r => some r.sum
          | .error _ => none := rfl
        simp only [Option.map_some, hme]
        show (∃ e g, some (Except.map _ (getAllEquidist (ops n) Util.calc1posWrap64 t 64 (n * 64) _ veq)) = _ ∧ _) ∨
          ∃ g d, some (Except.map _ (getAllEquidist (ops n) Util.calc1posWrap64 t 64 (n * 64) _ veq)) = _ ∧ _
        cases getAllEquidist (ops n) Util.calc1posWrap64 t 64 (n * 64) (64 * (65 * (n * 64)) + 65) veq with
        | error e => exact .inl ⟨e, t, rfl, rfl⟩
        | ok r => exact .inr ⟨t, r.sum, rfl, rfl⟩

/-- **C110.**  One search gives the same with and without `-v`, up to the bits of the masks that are not printed, if it starts with an
object whose masks are clean. -/
theorem allSearchV_same (hm : MinPolySeqSpec mps) (hK : KernelSpec kernel) (hmexp : mexp ∈ allowedMexp) (junk : BitVec 64)
    (veq : ℕ → ℕ) (vb : Bool) (c : List Char × List Char × List Char) {fuel : ℕ} (hfuel : fuel ≤ 214748) {g : St}
    (hg : SInv mexp { g with pos := 0 }) (hcl : getParamString g = g) (src : ℕ → BitVec 64) :
    (allSearchV mps kernel one junk veq vb c fuel mexp g src).map (fun q => q.1.clean) =
      (allSearch mps kernel one junk veq fuel mexp g src).map SRes.clean ∧
    (vb = false → ∀ q, allSearchV mps kernel one junk veq vb c fuel mexp g src = some q → q.2 = []) ∧
    (vb = true → ∀ t src' d o, allSearchV mps kernel one junk veq vb c fuel mexp g src = some (.found t src' d, o) →
      Says mps kernel one junk veq c mexp t d o) := by
  obtain ⟨h65, hmod, -⟩ := allowed_ge mexp hmexp
  obtain ⟨tries, htr⟩ : ∃ tries, 1000 * ((mexp / 64 + 1) * 64) = tries + 1 := ⟨1000 * ((mexp / 64 + 1) * 64) - 1, by omega⟩
  have hs : (findLoopV vb (rStart mps (searchOps mexp) mexp (1000 * ((mexp / 64 + 1) * 64))) fuel 0 ⟨g, src, 0, 0, 0⟩).map Prod.fst =
      rFindLoop mps (searchOps mexp) mexp (1000 * ((mexp / 64 + 1) * 64)) fuel ⟨g, src, 0, 0, 0⟩ := by
    have hid : (Prod.fst ∘ fun r : Res (RSt St (ℕ → BitVec 64)) => (r, ([] : Out))) = id := rfl
    have e : (findLoopV false (rStart mps (searchOps mexp) mexp (1000 * ((mexp / 64 + 1) * 64))) fuel 0 ⟨g, src, 0, 0, 0⟩).map Prod.fst =
      rFindLoop mps (searchOps mexp) mexp (1000 * ((mexp / 64 + 1) * 64)) fuel ⟨g, src, 0, 0, 0⟩ := by
      rw [rFindLoop_quiet, Option.map_map, hid, Option.map_id, id]
    cases vb with
    | false => exact e
    | true => rw [← e]; exact findLoopV_same _ fuel 0 _ (by omega)
  have hq : vb = false → ∀ x, findLoopV vb (rStart mps (searchOps mexp) mexp (1000 * ((mexp / 64 + 1) * 64))) fuel 0 ⟨g, src, 0, 0, 0⟩ =
      some x → x.2 = [] := by
    rintro rfl x hx
    rw [rFindLoop_quiet] at hx
    obtain ⟨y, -, rfl⟩ := Option.map_eq_some_iff.1 hx
    rfl
  unfold allSearchV allSearch
  dsimp only
  rw [← hs]
  cases hf : findLoopV vb (rStart mps (searchOps mexp) mexp (1000 * ((mexp / 64 + 1) * 64))) fuel 0 ⟨g, src, 0, 0, 0⟩ with
  | none => exact ⟨rfl, fun _ q h => (by cases h), fun _ t s d o h => by cases h⟩
  | some x =>
    rw [hf, Option.map_some] at hs
    obtain ⟨x, o⟩ := x
    have hs' := hs.symm
    rw [htr] at hs'
    obtain ⟨st, hx, hst⟩ := rFind_spec hm (by omega) tries fuel src hg hs'
    dsimp only at hx
    subst hx
    have hmask := rFind_masks' hm (by omega) tries fuel src hg hs'
    have hclean := clean_of_masks hmask hcl
    have hstr : (if vb = true then ((vops (mexp / 64 + 1)).str st.rand).1 else st.rand) = st.rand := by
      cases vb with
      | false => rfl
      | true => exact hclean
    have hq' : vb = false → o = [] := fun h => hq h _ hf
    simp only [Option.map_some, hstr]
    rcases (searchParity_ends (one := one) hK hmod junk hst.inv.inv st.irreducible).1 with ⟨e, -⟩ | ⟨v, e⟩
    · rw [e]
      dsimp only
      refine ⟨rfl, fun h q hh => ?_, fun _ t s d o h => by simp at h⟩
      injection hh with hh
      rw [← hh, hq' h, h]
      rfl
    · rw [e]
      dsimp only
      have hi : SInv mexp (setParityValue v st.rand) :=
        ⟨⟨hst.inv.inv.size, hst.inv.inv.index, hst.inv.inv.pos⟩, hst.inv.rev, hst.inv.mexp_eq⟩
      obtain ⟨a, ha1, ha2⟩ := reduced_total hm hi.invF st.irreducible
      have hta := after_temperQ (n := mexp / 64 + 1) (mps := mps) veq (setParityValue v st.rand) st.irreducible
      rw [ha1, Option.bind_some] at hta
      rw [ha1]
      dsimp only
      cases vb with
      | false =>
        rw [temperV_false (honest (mexp / 64 + 1) veq)]
        have ho := hq' rfl
        subst ho
        rcases hta with ⟨k1, k2⟩ | ⟨e, t, k1, k2⟩ | ⟨t, d, k1, k2⟩
        · rw [k1, k2]; exact ⟨rfl, fun _ q h => by injection h with h; rw [← h]; rfl, fun h => by cases h⟩
        · rw [k1, k2]; exact ⟨rfl, fun _ q h => by injection h with h; rw [← h]; rfl, fun h => by cases h⟩
        · rw [k1, k2]; exact ⟨rfl, fun _ q h => by injection h with h; rw [← h]; rfl, fun h => by cases h⟩
      | true =>
        have htt := temperV_true (honest (mexp / 64 + 1) veq) false c.2.1 c.2.2 veq ha2.1.1
        rcases hta with ⟨k1, k2⟩ | ⟨e, t, k1, k2⟩ | ⟨t, d, k1, k2⟩
        · rw [k2] at htt
          dsimp only at htt
          rw [k1, htt]; exact ⟨rfl, fun h => (by cases h), fun _ t s d o h => by simp at h⟩
        · rw [k2] at htt
          dsimp only at htt
          rw [k1, htt]; exact ⟨rfl, fun h => (by cases h), fun _ t s d o h => by simp at h⟩
        · rw [k2] at htt
          dsimp only at htt
          obtain ⟨o', veq1, veq2, j1, j2, j3⟩ := htt
          rw [k1, j3]
          refine ⟨?_, fun h => (by cases h), fun _ t1 s d1 o1 h => ?_⟩
          · show some (SRes.found (getParamString (getParamString t)) _ _) = _
            rw [getParamString_twice]
            rfl
          · simp only [Option.some.injEq, Prod.mk.injEq, SRes.found.injEq] at h
            obtain ⟨⟨h1, h2, h3⟩, h4⟩ := h
            subst h3
            obtain ⟨-, m, -, m2, m3, m4⟩ := notFound_lines (rStart_examines mps (searchOps mexp) mexp _) fuel 0 _ _ _ _ hf
            refine ⟨m, st.count, st.rand, st.irreducible, v, _, a, t, o', veq1, veq2, ?_, by simpa using m3, by simpa using m4, e, ha1,
              ha2.1.1, j1, j2, h1.symm⟩
            rw [← h4, m2, ← foundText_eq]
            unfold notFound
            simp only [List.append_assoc, if_true, Nat.zero_add]
            rfl

/-! ### The program -/

/-- The lines printed before the end. -/
def Ends.lines : Ends → List Line
  | .normal L => L
  | .shift L => L
  | .other L => L

/-- What is written by searches with the texts `q.1` that lead to the lines `q.2`. -/
def callsText (calls : List (Out × Line)) : Out := calls.flatMap fun q => q.1 ++ [(.cout, row q.2.cells)]

/-- The text of a search that leads to a line: without `-v` it is empty, with `-v` it is about the parameters of the line. -/
def IsCall (mps : MPS) (kernel : KernelFn) (one : ℕ → Option (BitVec 64)) (junk : ℕ → BitVec 64) (veq : ℕ → ℕ) (vb : Bool)
    (c : ℕ → List Char × List Char × List Char) (fuel mexp : ℕ) (q : Out × Line) : Prop :=
  ∃ k g src t src', allSearchV mps kernel one (junk k) veq vb (c k) fuel mexp g src = some (.found t src' q.2.delta, q.1) ∧
    q.2.param = fieldsOf t ∧ (vb = false → q.1 = []) ∧
    (vb = true → Says mps kernel one (junk k) veq (c k) mexp t q.2.delta q.1)

/-- The text of a search that executes something undefined. -/
def Fails (mps : MPS) (kernel : KernelFn) (one : ℕ → Option (BitVec 64)) (junk : ℕ → BitVec 64) (veq : ℕ → ℕ) (vb : Bool)
    (c : ℕ → List Char × List Char × List Char) (fuel mexp : ℕ) (o : Out) : Prop :=
  ∃ k g src r, allSearchV mps kernel one (junk k) veq vb (c k) fuel mexp g src = some (r, o) ∧ (r = .shift ∨ r = .other)

/-- The string of the parameters in the messages of the search is the line without delta. -/
theorem paramString_row (s : St) (d : ℤ) :
    (paramString s).2 ++ ",".toList ++ num d ++ "\n".toList = row (Line.mk (fieldsOf s) d).cells := by
  unfold row
  rw [← text_cells, ← decInt_num]
  rfl

theorem searchLinesV_same (hm : MinPolySeqSpec mps) (hK : KernelSpec kernel) (hmexp : mexp ∈ allowedMexp)
    (junk : ℕ → BitVec 64) (veq : ℕ → ℕ) (vb : Bool) (c : ℕ → List Char × List Char × List Char) {fuel : ℕ} (hfuel : fuel ≤ 214748)
    (k : ℕ) : ∀ (g : St) (src : ℕ → BitVec 64), SInv mexp { g with pos := 0 } → getParamString g = g →
    (searchLinesV mps kernel one junk veq vb c fuel mexp k g src).map Prod.fst = searchLines mps kernel one junk veq fuel mexp k g src ∧
    ∀ e o, searchLinesV mps kernel one junk veq vb c fuel mexp k g src = some (e, o) →
      ∃ calls last, (∀ q ∈ calls, IsCall mps kernel one junk veq vb c fuel mexp q) ∧ e.lines = calls.map Prod.snd ∧
        o = callsText calls ++ last ∧ (e = .normal e.lines ∧ last = [] ∨
          (∀ L, e ≠ .normal L) ∧ Fails mps kernel one junk veq vb c fuel mexp last) := by
  induction k with
  | zero =>
    intro g src _ _
    refine ⟨rfl, fun e o h => ?_⟩
    cases h
    exact ⟨[], [], fun q hq => absurd hq (by simp), rfl, rfl, .inl ⟨rfl, rfl⟩⟩
  | succ k ih =>
    intro g src hg hcl
    obtain ⟨s1, s2, s3⟩ := allSearchV_same (one := one) hm hK hmexp (junk k) veq vb (c k) hfuel hg hcl src
    rw [searchLinesV, searchLines]
    cases hv : allSearchV mps kernel one (junk k) veq vb (c k) fuel mexp g src with
    | none =>
      rw [hv] at s1
      have h2 : allSearch mps kernel one (junk k) veq fuel mexp g src = none := by
        cases h : allSearch mps kernel one (junk k) veq fuel mexp g src with
        | none => rfl
        | some r => rw [h] at s1; cases s1
      rw [h2]
      exact ⟨rfl, fun e o h => by cases h⟩
    | some x =>
      obtain ⟨x, o1⟩ := x
      rw [hv, Option.map_some] at s1
      cases h2 : allSearch mps kernel one (junk k) veq fuel mexp g src with
      | none => rw [h2] at s1; cases s1
      | some y =>
        rw [h2, Option.map_some, Option.some.injEq] at s1
        dsimp only at s1
        cases x with
        | shift =>
          cases y with
          | shift =>
            refine ⟨rfl, fun e o h => ?_⟩
            cases h
            exact ⟨[], o1, fun q hq => absurd hq (by simp), rfl, rfl, .inr ⟨fun L h => (by cases h), k, g, src, _, hv, .inl rfl⟩⟩
          | other => cases s1
          | found _ _ _ => cases s1
        | other =>
          cases y with
          | other =>
            refine ⟨rfl, fun e o h => ?_⟩
            cases h
            exact ⟨[], o1, fun q hq => absurd hq (by simp), rfl, rfl, .inr ⟨fun L h => (by cases h), k, g, src, _, hv, .inr rfl⟩⟩
          | shift => cases s1
          | found _ _ _ => cases s1
        | found t src1 d =>
          cases y with
          | shift => cases s1
          | other => cases s1
          | found t2 src2 d2 =>
            unfold SRes.clean at s1
            injection s1 with e1 e2 e3
            subst e2; subst e3
            have hf : fieldsOf t2 = fieldsOf t := by rw [← fieldsOf_clean t, e1, fieldsOf_clean]
            have ht2 : SInv mexp t2 := by
              rcases (allSearch_correct hm hK hmexp (junk k) veq fuel hg src h2).1 with ⟨h, -⟩ | ⟨a, b, c, h, h', -⟩
              · cases h
              · injection h with h; subst h; exact h'
            obtain ⟨i1, i2⟩ := ih (getParamString t) src1 (by rw [e1]; exact getParamString_sinv ht2) (getParamString_twice t)
            dsimp only
            rw [hf, ← e1, ← i1]
            refine ⟨?_, fun e o h => ?_⟩
            · rw [Option.map_map, Option.map_map]
              rfl
            · obtain ⟨⟨e', o'⟩, h3, h4⟩ := Option.map_eq_some_iff.1 h
              obtain ⟨calls, last, c1, c2, c3, c4⟩ := i2 e' o' h3
              rw [Prod.mk.injEq] at h4
              obtain ⟨h4, h5⟩ := h4
              dsimp only at h4 h5
              refine ⟨(o1, ⟨fieldsOf t, d⟩) :: calls, last, ?_, ?_, ?_, ?_⟩
              · intro q hq
                rcases List.mem_cons.1 hq with rfl | hq
                · exact ⟨k, g, src, t, src1, hv, rfl, fun h => s2 h _ hv, fun h => s3 h _ _ _ _ hv⟩
                · exact c1 q hq
              · rw [← h4]
                cases e' <;> (show _ :: _ = _ :: _; rw [← c2]; rfl)
              · rw [← h5, c3]
                unfold callsText
                rw [List.flatMap_cons]
                dsimp only
                rw [← paramString_row, ← decInt_num]
                simp only [List.append_assoc, List.cons_append, List.nil_append]
                rfl
              · rw [← h4]
                rcases c4 with ⟨c4, c5⟩ | ⟨c4, c5⟩
                · refine .inl ⟨?_, c5⟩
                  rw [c4]; rfl
                · refine .inr ⟨fun L h => ?_, c5⟩
                  cases e' with
                  | normal L' => exact c4 L' rfl
                  | shift _ => cases h
                  | other _ => cases h

/-- **C110.**  `rmt64dc -v` finds the same parameters as `rmt64dc` and ends in the same way, for every exponent that the options accept,
as long as no search makes more than 214748 turns of its outer loop.  Its text consists of the time of the start, the header, the texts
of the searches, each followed by its line, and the time of the end.  Without `-v` it is the text of C107. -/
theorem rmtMainV_same (hm : MinPolySeqSpec mps) (hK : KernelSpec kernel) (hmexp : mexp ∈ allowedMexp) (junk : ℕ → BitVec 64)
    (veq : ℕ → ℕ) (vb : Bool) (tStart tEnd : List Char) (c : ℕ → List Char × List Char × List Char) {fuel : ℕ}
    (hfuel : fuel ≤ 214748) (count : ℤ) (junkPos : ℕ) (junkA : BitVec 64) (junkS src : ℕ → BitVec 64) :
    (rmtMainV mps kernel one junk veq vb tStart tEnd c fuel mexp count junkPos junkA junkS src).map Prod.fst =
      rmtMain mps kernel one junk veq fuel mexp count junkPos junkA junkS src ∧
    ∀ e o, rmtMainV mps kernel one junk veq vb tStart tEnd c fuel mexp count junkPos junkA junkS src = some (e, o) →
      (vb = false → ∀ L, e = .normal L → (shown e).map (·.text) = some (o.flatMap Prod.snd)) ∧
      ∃ calls last, (∀ q ∈ calls, IsCall mps kernel one junk veq vb c fuel mexp q) ∧ e.lines = calls.map Prod.snd ∧
        o = (if vb then [(.cout, "search start at ".toList ++ tStart)] else []) ++
          [(.cout, "# mexp, pos, mata, parity, maskb, maskc, delta\n".toList)] ++ callsText calls ++ last ∧
        (e = .normal e.lines ∧ last = (if vb then [(.cout, "search end at ".toList ++ tEnd ++ "\n".toList)] else []) ∨
          (∀ L, e ≠ .normal L) ∧ Fails mps kernel one junk veq vb c fuel mexp last) := by
  obtain ⟨s1, s2⟩ := searchLinesV_same (one := one) hm hK hmexp junk veq vb c hfuel count.toNat (ctor mexp 1 junkPos junkA junkS) src
    (ctor_sinv 1 junkPos junkA junkS) (ctor_clean 1 junkPos junkA junkS)
  unfold rmtMainV rmtMain
  rw [← s1]
  refine ⟨by rw [Option.map_map]; rfl, fun e o h => ?_⟩
  obtain ⟨⟨e', o'⟩, h1, h2⟩ := Option.map_eq_some_iff.1 h
  rw [Prod.mk.injEq] at h2
  obtain ⟨h2, h3⟩ := h2
  dsimp only at h2 h3
  subst h2
  obtain ⟨calls, last, c1, c2, c3, c4⟩ := s2 _ _ h1
  have hh : "# ".toList ++ header ++ ", delta\n".toList = "# mexp, pos, mata, parity, maskb, maskc, delta\n".toList := by decide
  constructor
  · rintro rfl L rfl
    rcases c4 with ⟨-, rfl⟩ | ⟨c4, -⟩
    · rw [← h3, c3]
      have hL : L = calls.map Prod.snd := c2
      have hc : (callsText calls).flatMap Prod.snd = body Line.text L := by
        rw [body_rows text_cells, hL]
        have : ∀ q ∈ calls, q.1 = [] := fun q hq => by
          obtain ⟨_, _, _, _, _, _, _, h, _⟩ := c1 q hq
          exact h rfl
        unfold callsText
        clear hL c1 c2 c3 h1 h3 h
        induction calls with
        | nil => rfl
        | cons q calls ih =>
          rw [List.flatMap_cons, List.flatMap_append, List.flatMap_append, this q (by simp), ih fun q hq => this q (by simp [hq])]
          simp
      unfold shown
      simp only [say, Option.map_some, List.nil_append, List.append_nil, List.flatMap_append, hc, Bool.false_eq_true, if_false]
      simp
    · exact absurd rfl (c4 L)
  · rcases c4 with ⟨c4, c5⟩ | ⟨c4, c5⟩
    · refine ⟨calls, _, c1, c2, ?_, .inl ⟨c4, rfl⟩⟩
      rw [← h3, c3, c5, ← hh, c4]
      unfold say
      simp only [List.append_nil]
      rfl
    · refine ⟨calls, last, c1, c2, ?_, .inr ⟨c4, c5⟩⟩
      rw [← h3, c3, ← hh]
      unfold say
      cases e' with
      | normal L => exact absurd rfl (c4 L)
      | shift L => simp only [List.append_nil, List.append_assoc]
      | other L => simp only [List.append_nil, List.append_assoc]

end MTT.RMT
