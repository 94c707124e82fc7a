import Verif.Samples.MT2Verbose
import Verif.Samples.MT2Props
import Verif.Samples.SearchTextProps
import Verif.Search.VerboseProps
import Verif.Search.VerboseExample

/-!
# C110 for `mt2 -v`
-/

namespace MTT.Search

open Polynomial

variable {σ π : Type} {w : ℕ} {mps : MPS} {D : SearchOps σ π w} {prim : ℕ → (ZMod 2)[X] → Option Bool}

/-- The search for the recursion does not depend on what `setUpParam` overwrites. -/
theorem findLoop_ret_congr {s s' : σ} {n : ℕ} (h : ∀ src, D.setUp s src = D.setUp s' src) (hn : 1 ≤ n) {fuel : ℕ} {src : π}
    {b : Bool} {st : St σ π} (hr : findLoop mps D prim n fuel ⟨s, src, 0, 0⟩ = some (.ret b st)) :
    findLoop mps D prim n fuel ⟨s', src, 0, 0⟩ = some (.ret b st) := by
  obtain ⟨m, rfl⟩ : ∃ m, n = m + 1 := ⟨n - 1, by omega⟩
  cases fuel with
  | zero => cases hr
  | succ fuel =>
    cases hs : D.setUp s src with
    | none =>
      rw [findLoop, start, tryOnce] at hr
      simp only [hs] at hr
      cases hr
    | some q =>
      have et : tryOnce mps D prim ⟨s, src, 0, 0⟩ = tryOnce mps D prim ⟨s', src, 0, 0⟩ := by
        rw [tryOnce, tryOnce]
        simp only [← h src, hs]
      rw [findLoop, start, et] at hr
      rw [findLoop, start]
      exact hr

end MTT.Search

namespace MTT.MTDC

open Polynomial Text SearchText PIS Search Temper Verbose

variable {n r : ℕ}

theorem bb_reset (veq : ℕ → ℕ) (mexp : ℕ) (s : St) :
    bestBits (temperOps veq mexp) bb s = bestBits (temperOps veq mexp) bb (resetReverse s) := rfl

theorem reset_inv {s : St} (hs : Inv n r s) : Inv n r (resetReverse s) :=
  ⟨hs.size, hs.mexp, hs.rlt, hs.index, hs.upper, hs.lower, hs.pos1, hs.posn⟩

theorem setRev_inv {s : St} (hs : Inv n r s) : Inv n r (setReverse s) :=
  ⟨hs.size, hs.mexp, hs.rlt, hs.index, hs.upper, hs.lower, hs.pos1, hs.posn⟩

theorem table_sum (veq veq' : ℕ → ℕ) (mexp : ℕ) (g : St) : ((vops mexp).table veq' g).map Prod.snd = measure veq 32 g := by
  have h := sum_any (ops g.mexp) Util.calc1posWrap32 g 32 g.mexp (32 * ((32 + 1) * g.mexp) + 32 + 1) veq' veq
  have e1 : (vops mexp).table veq' g = match getAllEquidist (ops g.mexp) Util.calc1posWrap32 g 32 g.mexp
    (32 * ((32 + 1) * g.mexp) + 32 + 1) veq' with | .ok r => some (r.veq, r.sum) | .error _ => none := rfl
  unfold measure
  rw [e1]
  revert h
  generalize getAllEquidist (ops g.mexp) Util.calc1posWrap32 g 32 g.mexp (32 * ((32 + 1) * g.mexp) + 32 + 1) veq' = x
  generalize getAllEquidist (ops g.mexp) Util.calc1posWrap32 g 32 g.mexp (32 * ((32 + 1) * g.mexp) + 32 + 1) veq = y
  intro h
  cases x <;> cases y <;> simpa [Except.toOption] using h

/-- The hypotheses of `rtSearch_same` hold of `MT32Search`. -/
theorem honest (veq : ℕ → ℕ) {mexp : ℕ} (hm : mexp + r = 32 * n) (h1 : 1 ≤ mexp) :
    Honest (vops mexp) (bestBitsV (temperOps veq mexp) bb) (bestBitsV (temperOps veq mexp) bb) false
      (bestBits (temperOps veq mexp) bb) (bestBits (temperOps veq mexp) bb) (measure veq 32) (Inv n r) := by
  have keep : ∀ g g', Inv n r g → bestBits (temperOps veq mexp) bb g = some g' → Inv n r g' ∧ resetReverse g' = g' := by
    intro g g' hg h
    rw [bb_reset] at h
    obtain ⟨p, e, -⟩ := temper_spec veq hm h1 _ (reset_inv hg) rfl
    rw [e] at h
    injection h with h
    rw [← h]
    exact ⟨masks_inv (reset_inv hg) _ _, rfl⟩
  exact {
    same1 := fun vb g => bestBits_same _ _ vb g
    same2 := fun vb g => bestBits_same _ _ vb g
    quiet1 := fun g _ h => bestBits_quiet _ _ g h
    quiet2 := fun g _ h => bestBits_quiet _ _ g h
    table := fun veq' g => table_sum veq veq' mexp g
    total := fun g hg h => by
      have hm' := hg.mexp
      obtain ⟨d, e, -⟩ := measure_le veq hg (by omega) (show 1 ≤ 32 by omega) le_rfl
      rw [h] at e; cases e
    keep1 := fun g g' hg h => (keep g g' hg h).1
    keep2 := fun g g' hg h => ⟨(keep g g' hg h).1, setRev_inv (keep g g' hg h).1, (keep g g' hg h).2⟩
    str := fun _ _ => rfl }

/-! ### Specification -/

/-- What is written for calls of `search`, each with its own text and the line it leads to, if any. -/
def callsText (l : List (Out × Option Line)) : Out :=
  l.flatMap fun q => q.1 ++ match q.2 with
    | none => []
    | some l => [(.cout, row l.cells)]

/-- A call of `search` with its text: it finds parameters, and leads to a line if and only if their delta is small enough. -/
def IsCall (mps : MPS) (prim : ℕ → (ZMod 2)[X] → Option Bool) (veq : ℕ → ℕ) (vb : Bool)
    (c : ℕ → List Char × List Char × List Char) (fuel mexp : ℕ) (maxDelta : ℤ) (q : Out × Option Line) : Prop :=
  ∃ g f k r, rtCallV mps prim veq vb (c k) fuel mexp g f = some (.found r, q.1) ∧
    if r.delta ≤ maxDelta then q.2 = some (lineOf r.rand r.delta) else q.2 = none

variable {mps : MPS} {prim : ℕ → (ZMod 2)[X] → Option Bool}

/-- One call of `search` gives the same with and without `-v`. -/
theorem rtCallV_same (hmps : MinPolySeqSpec mps) {mexp : ℕ} (hprim : PrimOK prim mexp) (hm : mexp + r = 32 * n)
    (hr : r < 32) (hn3 : 3 ≤ n) {id : ℤ} (veq : ℕ → ℕ) (vb : Bool) (c : List Char × List Char × List Char) {fuel : ℕ}
    (hfuel : fuel ≤ 214748) (g : St) (hg : SInv n r id { g with pos := 2 }) (f : ℕ → BitVec 32) :
    (rtCallV mps prim veq vb c fuel mexp g f).map Prod.fst = rtCall mps prim veq fuel mexp g f := by
  have h1 : 1 ≤ mexp := by omega
  have F := family hm hr hn3 id
  cases vb with
  | true =>
    refine (rtSearch_same (honest veq hm h1) true c.1 c.2.1 c.2.2 veq hfuel g f fun b st h => ?_).1
    have h' := findLoop_ret_congr (s' := { g with pos := 2 }) (fun src => by
      show (setUpParam _ _ g).map _ = Option.map _ _
      rw [← setUpParam_pos _ _ g 2]) (by show 1 ≤ 1000 * mexp; omega) h
    exact ((findLoop_spec (P := Par) F hmps hprim _ fuel _ hg h').2 b st rfl).2.1.inv
  | false =>
    unfold rtCallV rtCall
    rw [rtSearch_quiet (honest veq hm h1), Option.map_map]
    have hid : (Prod.fst ∘ fun r : RTRes St (ℕ → BitVec 32) => (r, ([] : Out))) = _root_.id := rfl
    rw [hid, Option.map_id, _root_.id]

theorem rtCallV_quiet {mexp : ℕ} (hm : mexp + r = 32 * n) (h1 : 1 ≤ mexp) (veq : ℕ → ℕ) (c : List Char × List Char × List Char)
    (fuel : ℕ) (g : St) (f : ℕ → BitVec 32) {x : RTRes St (ℕ → BitVec 32) × Out}
    (h : rtCallV mps prim veq false c fuel mexp g f = some x) : x.2 = [] := by
  unfold rtCallV at h
  rw [rtSearch_quiet (honest veq hm h1)] at h
  obtain ⟨r, -, rfl⟩ := Option.map_eq_some_iff.1 h
  rfl

/-- The string of the parameters in the messages of the search is the line without delta. -/
theorem paramString_row (s : St) (d : ℤ) : paramString s ++ num d ++ "\n".toList = row (lineOf s d).cells := by
  have h := text_cells (lineOf s d)
  unfold row
  rw [← h, ← decInt_num]
  unfold paramString Line.text lineOf
  simp only [List.append_assoc]
  rfl

theorem line_out (s : St) (d : ℤ) : paramString s ++ decInt d ++ ['\n'] = row (lineOf s d).cells := by
  rw [← paramString_row, decInt_num]
  rfl

theorem mainLoopV_same (hmps : MinPolySeqSpec mps) {mexp : ℕ} (hprim : PrimOK prim mexp) (hm : mexp + r = 32 * n)
    (hn : n = mexp / 32 + 1) (hr : r = 32 - mexp % 32) (h32 : mexp % 32 ≠ 0) (hn3 : 3 ≤ n) {id : ℤ} (hid0 : 0 ≤ id)
    (hid1 : id ≤ 0xffff) (veq : ℕ → ℕ) (vb : Bool) (c : ℕ → List Char × List Char × List Char) {fuel : ℕ}
    (hfuel : fuel ≤ 214748) (maxDelta : ℤ) (turns : ℕ) (count : ℤ) (g : St) (hg : SInv n r id { g with pos := 2 })
    (f : ℕ → BitVec 32) :
    (mainLoopV mps prim veq vb c fuel mexp maxDelta turns count g f).map (Option.map Prod.fst) =
      mainLoop mps prim veq fuel mexp maxDelta turns count g f ∧
    ∀ L o, mainLoopV mps prim veq vb c fuel mexp maxDelta turns count g f = some (some (L, o)) →
      (vb = false → o = L.map fun l => (.cout, row l.cells)) ∧
      ∃ calls : List (Out × Option Line), (∀ q ∈ calls, IsCall mps prim veq vb c fuel mexp maxDelta q) ∧
        L = calls.filterMap Prod.snd ∧ o = callsText calls := by
  have h1 : 1 ≤ mexp := by omega
  induction turns generalizing count g f with
  | zero => exact ⟨rfl, fun L o h => by cases h⟩
  | succ turns ih =>
    rw [mainLoopV, mainLoop]
    by_cases hc : count > 0
    · rw [if_pos hc, if_pos hc]
      have hs := rtCallV_same hmps hprim hm (by omega) hn3 veq vb (c turns) hfuel g hg f
      cases hv : rtCallV mps prim veq vb (c turns) fuel mexp g f with
      | none =>
        rw [hv] at hs
        rw [← hs]
        exact ⟨rfl, fun L o h => by cases h⟩
      | some x =>
        have hq : vb = false → x.2 = [] := by
          rintro rfl
          exact rtCallV_quiet hm h1 veq _ fuel g f hv
        rw [hv] at hs
        obtain ⟨x1, o⟩ := x
        obtain ⟨x, rfl, ho, -⟩ := rtCall_correct hmps hprim hm hn hr h32 hn3 hid0 hid1 veq fuel g hg f hs.symm
        rw [← hs]
        dsimp only [Option.map_some] at hq ⊢
        have ho' : SInv n r id { x.rand with pos := 2 } := by
          have hi := ho.inv
          exact ⟨⟨hi.size, hi.mexp, hi.rlt, hi.index, hi.upper, hi.lower, by show 1 ≤ 2; omega, by show 2 < n; omega⟩,
            ho.rev, ho.id⟩
        by_cases hd : x.delta > maxDelta
        · rw [if_pos hd, if_pos hd]
          obtain ⟨i1, i2⟩ := ih count x.rand ho' x.src
          rw [← i1]
          cases hrest : mainLoopV mps prim veq vb c fuel mexp maxDelta turns count x.rand x.src with
          | none => exact ⟨rfl, fun L o h => by cases h⟩
          | some y =>
            cases y with
            | none => exact ⟨rfl, fun L o h => by cases h⟩
            | some y =>
              obtain ⟨L', o'⟩ := y
              obtain ⟨k1, calls, k2, k3, k4⟩ := i2 L' o' hrest
              refine ⟨rfl, fun L o2 h => ?_⟩
              cases h
              refine ⟨fun h => by dsimp only; rw [hq h, k1 h]; rfl, (o, none) :: calls, fun q hq => ?_, k3, ?_⟩
              · rcases List.mem_cons.1 hq with rfl | hq
                · exact ⟨g, f, turns, x, hv, by rw [if_neg (by omega)]⟩
                · exact k2 q hq
              · dsimp only
                rw [k4]
                unfold callsText
                rw [List.flatMap_cons, List.append_nil]
        · rw [if_neg hd, if_neg hd]
          obtain ⟨i1, i2⟩ := ih (count - 1) x.rand ho' x.src
          rw [← i1]
          cases hrest : mainLoopV mps prim veq vb c fuel mexp maxDelta turns (count - 1) x.rand x.src with
          | none => exact ⟨rfl, fun L o h => by cases h⟩
          | some y =>
            cases y with
            | none => exact ⟨rfl, fun L o h => by cases h⟩
            | some y =>
              obtain ⟨L', o'⟩ := y
              obtain ⟨k1, calls, k2, k3, k4⟩ := i2 L' o' hrest
              refine ⟨rfl, fun L o2 h => ?_⟩
              cases h
              rw [line_out]
              refine ⟨fun h => by dsimp only; rw [hq h, k1 h]; rfl, (o, some (lineOf x.rand x.delta)) :: calls, fun q hq => ?_, ?_, ?_⟩
              · rcases List.mem_cons.1 hq with rfl | hq
                · exact ⟨g, f, turns, x, hv, by rw [if_pos (by omega)]⟩
                · exact k2 q hq
              · rw [List.filterMap_cons]; exact congrArg (lineOf x.rand x.delta :: ·) k3
              · dsimp only
                rw [k4]
                unfold callsText
                rw [List.flatMap_cons]
    · rw [if_neg hc, if_neg hc]
      refine ⟨rfl, fun L o h => ?_⟩
      cases h
      exact ⟨fun _ => rfl, [], ⟨fun q hq => absurd hq (by simp), rfl, rfl⟩⟩

/-- **C110.**  `mt2 -v` finds the same parameters as `mt2`, for all exponents and identifiers that the options accept, as long as
no call of the search makes more than 214748 turns of its outer loop (the number in "not found in" overflows after that).  Its text
is the header and the texts of the calls of the search, each followed by the line it leads to. -/
theorem mainV_same (hmps : MinPolySeqSpec mps) {mexp : ℕ} (hmexp : mexp ∈ allowedMexp) {id : ℤ} (hid0 : 0 ≤ id)
    (hid1 : id ≤ 0xffff) (veq : ℕ → ℕ) (vb : Bool) (c : ℕ → List Char × List Char × List Char) {fuel : ℕ}
    (hfuel : fuel ≤ 214748) (turns : ℕ) (count maxDelta : ℤ) (junkPos : ℕ) (junkA : BitVec 32) (junk f : ℕ → BitVec 32) :
    (mainV mps (Period.primitivityOp none) veq vb c fuel turns mexp id count maxDelta junkPos junkA junk f).map (Option.map Prod.fst) =
      main mps (Period.primitivityOp none) veq fuel turns mexp id count maxDelta junkPos junkA junk f ∧
    ∀ L o, mainV mps (Period.primitivityOp none) veq vb c fuel turns mexp id count maxDelta junkPos junkA junk f = some (some (L, o)) →
      (vb = false → o.flatMap Prod.snd = (shown L).text) ∧
      ∃ calls : List (Out × Option Line), (∀ q ∈ calls, IsCall mps (Period.primitivityOp none) veq vb c fuel mexp maxDelta q) ∧
        L = calls.filterMap Prod.snd ∧
        o = (.cout, "mexp, id, pos, mata, maskb, maskc, delta\n".toList) :: callsText calls := by
  have htab : ∀ e ∈ allowedMexp, e ∈ Period.mersenneExponent ∧ e ≤ 216091 ∧ e % 32 ≠ 0 ∧ 64 ≤ e := by decide +kernel
  obtain ⟨t1, t2, t3, t4⟩ := htab mexp hmexp
  have hprim : PrimOK (Period.primitivityOp none) mexp := primOK_mersenne (Mexp.table_prime mexp t1 t2)
  obtain ⟨n, hn⟩ : ∃ n, n = mexp / 32 + 1 := ⟨_, rfl⟩
  obtain ⟨r, hr⟩ : ∃ r, r = 32 - mexp % 32 := ⟨_, rfl⟩
  have e : (mexp / 32 + 1) * 32 - mexp = r := by omega
  unfold mainV main ctor
  dsimp only
  rw [e, if_pos (by omega)]
  dsimp only
  obtain ⟨h1, h2⟩ := mainLoopV_same (n := n) (r := r) hmps hprim (by omega) hn hr t3 (by omega) hid0 hid1 veq vb c hfuel maxDelta turns
    count (seed 1 ⟨mexp, mexp / 32 + 1, 0, junk, junkPos, junkA, 0, 0, (~~~ (0 : BitVec 32)) <<< r, ~~~ ((~~~ (0 : BitVec 32)) <<< r), id, false⟩) (by
      refine ⟨⟨hn.symm, ?_, by omega, ?_, rfl, rfl, by show 1 ≤ 2; omega, by show 2 < n; omega⟩, rfl, rfl⟩
      · show mexp + r = _; omega
      · show mexp / 32 + 1 - 1 < n; omega) f
  rw [← h1]
  refine ⟨?_, fun L o h => ?_⟩
  · rw [Option.map_map]
    congr 1
    funext x
    cases x <;> rfl
  · obtain ⟨x, hx, h⟩ := Option.map_eq_some_iff.1 h
    obtain ⟨q, rfl, h⟩ := Option.map_eq_some_iff.1 h
    obtain ⟨k1, calls, k2, k3, k4⟩ := h2 q.1 q.2 hx
    cases h
    refine ⟨fun hv => ?_, calls, k2, k3, by rw [k4]; rfl⟩
    rw [k1 hv]
    unfold shown
    rw [body_rows text_cells, List.flatMap_cons, List.flatMap_map]

end MTT.MTDC
