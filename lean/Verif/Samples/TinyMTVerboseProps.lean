import Verif.Samples.TinyMTVerbose
import Verif.Samples.TinyMTDCProps
import Verif.Search.VerboseProps
import Verif.Samples.SearchTextProps

/-!
# C109 for `tinymt32dc -v`
-/

namespace MTT.TinyMT

open Polynomial Text SearchText PIS Search Temper Verbose

theorem table_spec (veq : ℕ → ℕ) (g : St) : ∃ k d, vops.table veq g = some (k, d) ∧ measure veq 32 g = some d ∧
    (∀ v, 1 ≤ v → v ≤ 32 → IsGreatest {k | Equidist (T g) (O g) (cyc (T g) (den g)) v k} (k (v - 1))) ∧
    d = ∑ v ∈ Finset.Icc 1 32, ((127 / v : ℕ) - (k (v - 1) : ℤ)) := by
  obtain ⟨r, e1, e2, e3⟩ := equidist (clone g) veq
  refine ⟨r.veq, r.sum, ?_, ?_, e2, e3⟩
  · show (match getAllEquidist ops Util.calc1posWrap32 (clone g) 32 127 (32 * ((32 + 1) * 127) + 32 + 1) veq with
      | .ok r => some (r.veq, r.sum) | .error _ => none) = _
    rw [e1]
  · unfold measure; rw [e1]

theorem pbp_reset (veq : ℕ → ℕ) (P : PBPar) (fuel : ℕ) {g g' : St} (h : partialBitPattern (temperOps veq) P fuel g = some g') :
    resetReverse (setReverse g') = g' := by
  unfold partialBitPattern at h
  dsimp only at h
  obtain ⟨q, -, rfl⟩ := Option.map_eq_some_iff.1 h
  rfl

/-- The hypotheses of `rtSearch_same` hold of tinymt32. -/
theorem honest (veq : ℕ → ℕ) : Honest vops (fun vb => partialBitPatternV (temperOps veq) st32 24 vb)
    (fun vb => partialBitPatternV (temperOps veq) stlsb32 10 vb) true (partialBitPattern (temperOps veq) st32 24)
    (partialBitPattern (temperOps veq) stlsb32 10) (measure veq 32) (fun _ => True) where
  same1 vb g := partialBitPattern_same _ _ _ vb g
  same2 vb g := partialBitPattern_same _ _ _ vb g
  quiet1 g _ h := partialBitPattern_quiet _ _ _ g h
  quiet2 g _ h := partialBitPattern_quiet _ _ _ g h
  table veq' g := by
    obtain ⟨k, d, h1, h2, -⟩ := table_spec veq' g
    obtain ⟨e, h3, h4⟩ := measure_spec veq g
    obtain ⟨e', h5, h6⟩ := measure_spec veq' g
    rw [h1, h3, Option.map_some]
    rw [h2, Option.some.injEq] at h5
    rw [h5]
    exact congrArg some (isDefect_unique h6 h4)
  total g _ h := by
    obtain ⟨d, h1, -⟩ := measure_spec veq g
    rw [h] at h1; cases h1
  keep1 _ _ _ _ := trivial
  keep2 _ _ _ h := ⟨trivial, trivial, pbp_reset veq _ _ h⟩
  str _ _ := rfl

/-- **C109.**  The string of the parameters in the messages of the search is the line of tinymt32dc without its first cell and the
last two. -/
theorem str_row (o : RTOut St (Seq.St 32)) :
    hexa 32 (polyNat o.poly) ++ ",".toList ++ (vops.str o.rand).2 ++ num o.weight ++ ",".toList ++ num o.delta ++ "\n".toList =
      row (lineOf o).cells := by
  unfold row Line.cells lineOf vops
  simp only [dec_num, hexW_hexa, List.append_assoc]
  simp [List.intercalate]

variable {mps : MPS} {prim : ℕ → (ZMod 2)[X] → Option Bool} {id : BitVec 32}

/-- The source of the parameters ends before the number in "not found in" can overflow. -/
theorem findLoop_turns (hm : MinPolySeqSpec mps) (hprim : PrimOK prim 127) {n : ℕ} (hn : 127000 ≤ n) (fuel i : ℕ)
    (st : Search.St St (Seq.St 32)) (hi : st.rand.id = id) (hr : st.rand.rev = false) {m : ℕ} (hrem : XorShift.IsRem st.src m)
    (hb : i * 127000 + m ≤ 2 ^ 32) :
    (findLoopV true (start mps searchOps prim n) fuel i st).map Prod.fst =
      (findLoopV false (start mps searchOps prim n) fuel i st).map Prod.fst := by
  induction fuel generalizing i st m with
  | zero => rfl
  | succ fuel ih =>
    rw [findLoopV, findLoopV]
    rcases start_rem hm hprim n st hi hr hrem with ⟨m', st', g1, -⟩ | ⟨m', st', g1, g2, g3, g4, g5, -⟩ | ⟨st', g1, -⟩
    · rw [g1]
    · rw [g1]
      dsimp only
      have h1 : (i + 1) * 127000 + m' ≤ 2 ^ 32 := by clear g1 ih; rw [Nat.succ_mul]; linarith
      have h2 : (i + 1) * 10000 < 2 ^ 31 := by omega
      have h3 := ih (i + 1) st' g4 g5 g2 h1
      rw [if_neg (show ¬ true = false by decide), if_pos rfl, if_pos h2, Option.map_map, ← h3]
      rfl
    · rw [g1]

/-- **C109.**  `all.search` of tinymt32dc gives the same with and without `-v`, however long the search takes. -/
theorem allSearchV_same (hm : MinPolySeqSpec mps) (hprim : PrimOK prim 127) (veq : ℕ → ℕ) (vb : Bool)
    (c : List Char × List Char × List Char) (fuel : ℕ) {g : St} {sq : Seq.St 32} (hi : g.id = id) (hr : g.rev = false) {m : ℕ}
    (hrem : XorShift.IsRem sq m) :
    (allSearchV mps prim veq vb c fuel g sq).map Prod.fst = allSearch mps prim veq fuel g sq := by
  have hle : m ≤ 2 ^ 32 := by
    rcases Nat.eq_zero_or_pos m with h | h
    · omega
    · exact (hrem.2.2 h).2.2
  cases vb with
  | true =>
    exact (rtSearch_same_of (honest veq) false c.1 c.2.1 c.2.2 veq g sq
      (findLoop_turns hm hprim (show 127000 ≤ 1000 * 127 by omega) fuel 0 _ hi hr hrem (by omega)) fun _ _ _ => trivial).1
  | false =>
    unfold allSearchV allSearch
    rw [rtSearch_quiet (honest veq), Option.map_map]
    have hid : (Prod.fst ∘ fun r : RTRes St (Seq.St 32) => (r, ([] : Out))) = _root_.id := rfl
    rw [hid, Option.map_id, _root_.id]

/-- What is written for the lines `L` when `i` lines have been written before. -/
noncomputable def writes (i : ℕ) (L : List Line) : Out :=
  (if i = 0 ∧ L ≠ [] then [(.cout, "# characteristic, ".toList ++ header ++ ", weight, delta\n".toList)] else []) ++
    L.map fun l => (.cout, l.text ++ "\n".toList)

theorem writes_cons (i : ℕ) (l : Line) (L : List Line) : writes i (l :: L) =
    (if i = 0 then [(.cout, "# characteristic, ".toList ++ header ++ ", weight, delta\n".toList)] else []) ++
      [(.cout, l.text ++ "\n".toList)] ++ writes (i + 1) L := by
  unfold writes
  rw [if_neg (show ¬ (i + 1 = 0 ∧ L ≠ []) by omega), List.nil_append, List.map_cons, List.append_assoc]
  by_cases h : i = 0
  · rw [if_pos ⟨h, by simp⟩, if_pos h]; rfl
  · rw [if_neg (by tauto), if_neg h]; rfl

/-- What is written for calls of `all.search`, each with its own text and the line it leads to, if any; `i` lines have been written
before. -/
noncomputable def callsText : ℕ → List (Out × Option Line) → Out
  | _, [] => []
  | i, (t, none) :: l => t ++ callsText i l
  | i, (t, some x) :: l =>
    t ++ (if i = 0 then [(.cout, "# characteristic, ".toList ++ header ++ ", weight, delta\n".toList)] else []) ++
      [(.cout, x.text ++ "\n".toList)] ++ callsText (i + 1) l

/-- A call of `all.search` with its text: it leads to a line if and only if it finds parameters with a delta that is small enough. -/
def IsCall (mps : MPS) (prim : ℕ → (ZMod 2)[X] → Option Bool) (veq : ℕ → ℕ) (vb : Bool)
    (c : ℕ → List Char × List Char × List Char) (maxDelta : ℤ) (q : Out × Option Line) : Prop :=
  ∃ g sq f x, allSearchV mps prim veq vb (c f) (f + 1) g sq = some (x, q.1) ∧
    match q.2 with
    | some l => ∃ r, x = .found r ∧ r.delta ≤ maxDelta ∧ l = lineOf r
    | none => x = .threw ∨ ∃ r, x = .found r ∧ maxDelta < r.delta

/-- The line at the end of `tinymt32dc -v`. -/
def endLine (vb : Bool) (tEnd : List Char) : Out :=
  match vb with
  | true => [(.cout, "search end at ".toList ++ tEnd ++ "\n".toList)]
  | false => []

theorem dcLoopV_same (hm : MinPolySeqSpec mps) (hprim : PrimOK prim 127) (veq : ℕ → ℕ) (vb : Bool)
    (c : ℕ → List Char × List Char × List Char) (tEnd : List Char) (count : ℕ) (all : Bool) (maxDelta : ℤ) :
    ∀ (fuel : ℕ) (g : St) (sq : Seq.St 32) (i m : ℕ), g.id = id → g.rev = false → XorShift.IsRem sq m → m < fuel →
    ∃ L o, dcLoop mps prim veq count all maxDelta fuel g sq i = some L ∧
      dcLoopV mps prim veq vb c tEnd count all maxDelta fuel g sq i = some (L, o) ∧
      (writes i L).Sublist o ∧ (vb = false → o = writes i L) ∧
      ∃ calls : List (Out × Option Line), (∀ q ∈ calls, IsCall mps prim veq vb c maxDelta q) ∧ L = calls.filterMap Prod.snd ∧
        o = callsText i calls ++ if i + L.length < count ∨ all = true then [] else endLine vb tEnd
  | 0, _, _, _, _, _, _, _, hf => by omega
  | fuel + 1, g, sq, i, m, hi, hr, hrem, hf => by
    rw [dcLoop, dcLoopV]
    by_cases hc : i < count ∨ all = true
    · rw [if_pos hc, if_pos hc]
      have hs := allSearchV_same hm hprim veq vb (c fuel) (fuel + 1) hi hr hrem
      have hq : vb = false → ∀ x, allSearchV mps prim veq vb (c fuel) (fuel + 1) g sq = some x → x.2 = [] := by
        rintro rfl x hx
        unfold allSearchV at hx
        rw [rtSearch_quiet (honest veq)] at hx
        obtain ⟨r, -, rfl⟩ := Option.map_eq_some_iff.1 hx
        rfl
      rcases allSearch_rem hm hprim veq (fuel + 1) g sq hi hr hrem hf with ⟨m', r, h1, h2, h3, h4, h5, h6, h7⟩ | ⟨h1, h2⟩
      · rw [h1] at hs ⊢
        obtain ⟨x, hx, hx1⟩ := Option.map_eq_some_iff.1 hs
        have hq' := fun h => hq h x hx
        obtain ⟨x1, o⟩ := x
        have hx1' : x1 = .found r := hx1
        subst hx1'
        rw [hx]
        dsimp only at hq' ⊢
        by_cases hd : r.delta > maxDelta
        · rw [if_pos hd, if_pos hd]
          obtain ⟨L, o', k1, k2, k3, k4, calls, k5, k6, k7⟩ := dcLoopV_same hm hprim veq vb c tEnd count all maxDelta fuel r.rand r.src i m' h4 h5 h2
            (by omega)
          refine ⟨L, o ++ o', k1, by rw [k2]; rfl, k3.trans (List.sublist_append_right _ _), fun h => ?_, (o, none) :: calls, ?_, k6, ?_⟩
          · rw [hq' h, k4 h]; rfl
          · intro q hq
            rcases List.mem_cons.1 hq with rfl | hq
            · exact ⟨g, sq, fuel, _, hx, Or.inr ⟨r, rfl, hd⟩⟩
            · exact k5 q hq
          · rw [k7, callsText, List.append_assoc]
        · rw [if_neg hd, if_neg hd]
          obtain ⟨L, o', k1, k2, k3, k4, calls, k5, k6, k7⟩ := dcLoopV_same hm hprim veq vb c tEnd count all maxDelta fuel r.rand r.src (i + 1) m' h4 h5 h2
            (by omega)
          refine ⟨lineOf r :: L, _, by rw [k1]; rfl, by rw [k2]; rfl, ?_, fun h => ?_, (o, some (lineOf r)) :: calls, ?_, ?_, ?_⟩
          · rw [writes_cons]
            refine List.Sublist.append ?_ k3
            rw [List.append_assoc o]
            exact List.sublist_append_right _ _
          · rw [writes_cons, k4 h, hq' h]; rfl
          · intro q hq
            rcases List.mem_cons.1 hq with rfl | hq
            · exact ⟨g, sq, fuel, _, hx, r, rfl, by omega, rfl⟩
            · exact k5 q hq
          · rw [List.filterMap_cons]; exact congrArg (lineOf r :: ·) k6
          · have e : i + (lineOf r :: L).length = i + 1 + L.length := by rw [List.length_cons]; omega
            rw [k7, callsText, e]
            simp only [List.append_assoc]
            rfl
      · rw [h1] at hs ⊢
        obtain ⟨x, hx, hx1⟩ := Option.map_eq_some_iff.1 hs
        have hq' := fun h => hq h x hx
        obtain ⟨x1, o⟩ := x
        have hx1' : x1 = .threw := hx1
        subst hx1'
        rw [hx]
        refine ⟨[], o, rfl, rfl, ?_, fun h => ?_, [(o, none)], ?_, rfl, ?_⟩
        · unfold writes; rw [if_neg (by simp)]; exact List.nil_sublist _
        · have := hq' h
          dsimp only at this
          rw [this]; unfold writes; rw [if_neg (by simp)]; rfl
        · intro q hq
          rw [List.mem_singleton] at hq
          rw [hq]
          exact ⟨g, sq, fuel, _, hx, Or.inl rfl⟩
        · have hc' : i + ([] : List Line).length < count ∨ all = true := hc
          rw [if_pos hc']
          simp [callsText]
    · rw [if_neg hc, if_neg hc]
      refine ⟨[], _, rfl, rfl, ?_, fun h => ?_, [], ?_, rfl, ?_⟩
      · unfold writes; rw [if_neg (by simp)]; exact List.nil_sublist _
      · rw [h]; unfold writes; rw [if_neg (by simp)]; rfl
      · intro q hq; cases hq
      · have hc' : ¬ (i + ([] : List Line).length < count ∨ all = true) := hc
        rw [if_neg hc']
        cases vb <;> rfl

/-- **C109.**  `tinymt32dc -v` finds the same parameters as `tinymt32dc`, for all options: the lines of the run without `-v` are
among its lines, in the same order, and it gives them the same records.  Its text is a line with the time of the start, a line with
the id, the texts of the calls of the search, each with the line it leads to, and a line with the time of the end, unless the
parameters have been used up. -/
theorem dcMainV_same (hm : MinPolySeqSpec mps) (veq : ℕ → ℕ) (vb : Bool) (c : ℕ → List Char × List Char × List Char)
    (tStart tEnd : List Char) (count : ℕ) (all : Bool) (maxDelta : ℤ) (start uid : BitVec 32) {fuel : ℕ} (hf : start.toNat + 1 < fuel) :
    ∃ L o, dcMain mps (Period.primitivityOp none) veq count all maxDelta start uid fuel = some L ∧
      dcMainV mps (Period.primitivityOp none) veq vb c tStart tEnd count all maxDelta start uid fuel = some (L, o) ∧
      (writes 0 L).Sublist o ∧ (vb = false → o.flatMap Prod.snd = (shown L).text) ∧
      ∃ calls : List (Out × Option Line), (∀ q ∈ calls, IsCall mps (Period.primitivityOp none) veq vb c maxDelta q) ∧
        L = calls.filterMap Prod.snd ∧
        (vb = true → o = [(.cout, "search start at ".toList ++ tStart), (.cout, "id:".toList ++ number uid.toNat ++ "\n".toList)] ++
          callsText 0 calls ++ if L.length < count ∨ all = true then [] else [(.cout, "search end at ".toList ++ tEnd ++ "\n".toList)]) := by
  have hrem : XorShift.IsRem (Seq.make2 0 start) (start.toNat + 1) :=
    ⟨rfl, fun h => absurd h (by omega), fun _ => ⟨rfl, by simp [Seq.make2], by
      have := start.isLt; omega⟩⟩
  obtain ⟨L, o, h1, h2, h3, h4, calls, h5, h6, h7⟩ := dcLoopV_same hm (primOK_mersenne prime127) veq vb c tEnd count all maxDelta fuel (ctor uid) _ 0 _
    rfl rfl hrem hf
  refine ⟨L, say vb .cout ("search start at ".toList ++ tStart) ++ say vb .cout ("id:".toList ++ dec uid.toNat ++ ['\n']) ++ o, h1,
    ?_, ?_, fun h => ?_, calls, h5, h6, ?_⟩
  · unfold dcMainV; rw [h2]; rfl
  · exact h3.trans (List.sublist_append_right _ _)
  · rw [h, h4 h]
    show (writes 0 L).flatMap Prod.snd = _
    unfold writes shown body
    rw [List.flatMap_append, List.flatMap_map]
    cases L with
    | nil => rfl
    | cons l L => simp
  · rintro rfl
    rw [Nat.zero_add] at h7
    rw [h7]
    unfold number
    rw [← nat_text]
    simp only [List.append_assoc]
    rfl

/-- **C109 (the text is wrong, see C59).**  What tinymt32dc writes under "lsb delta" is the table and the delta of the outputs in
the normal order of bits. -/
theorem lsb_says_msb (t : List Char) (veq : ℕ → ℕ) (g : St) (hr : g.rev = false) : ∃ k d,
    lsbReport vops true t veq g = some (g, k, [(.os, "lsb tempering parameters are found at ".toList ++ t ++ "\n".toList),
      (.os, (List.range' 1 32).flatMap fun v => kvLine v (k (v - 1)) ((127 / v : ℕ) - (k (v - 1) : ℤ))),
      (.os, "lsb delta = ".toList ++ number d ++ "\n".toList)]) ∧
    (∀ v, 1 ≤ v → v ≤ 32 → IsGreatest {k | Equidist (T g) (O g) (cyc (T g) (den g)) v k} (k (v - 1))) ∧ IsDefect g false d := by
  obtain ⟨k, d, h1, h2, h3, h4⟩ := table_spec veq g
  refine ⟨k, d, ?_, h3, ⟨fun v => k (v - 1), h3, h4⟩⟩
  have hs : vops.table veq (vops.setRev g) = vops.table veq g := rfl
  have hg : vops.resetRev (vops.setRev g) = g := by
    cases g; cases hr; rfl
  unfold lsbReport
  dsimp only
  rw [if_pos rfl, hs, h1, Option.map_some, hg]
  unfold tableText
  rw [kv_text, deltaText_eq]
  rfl

end MTT.TinyMT
