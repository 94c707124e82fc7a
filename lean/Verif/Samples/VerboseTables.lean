import Verif.Samples.MT2VerboseProps
import Verif.Samples.MTGPVerboseProps
import Verif.Samples.RMTVerboseProps

/-!
# C110: what mt2, MTGP32dc and rmt64dc say with `-v` at the end of a search

`finalText` is what is expected at the end: the time, the parameters, one line `v:k(v)(d(v))` for every `v` up to the number of bits of a
word, and the sum of the `d(v)`.
-/

namespace MTT.Verbose

open Polynomial Text Temper Search

/-- The last lines of a search that has found the parameters `str`, for words of `w` bits and a state of `size` bits, if the dimension of
equidistribution with `v` bits is `k v`. -/
def finalText (t str : List Char) (w size : ℕ) (k : ℕ → ℕ) : Out :=
  [(.os, "tempering parameters are found at ".toList ++ t ++ "\n".toList), (.os, str ++ "\n".toList),
   (.os, (List.range' 1 w).flatMap fun (v : ℕ) => number v ++ ":".toList ++ number (k v) ++ "(".toList ++
     number ((size / v : ℕ) - (k v : ℤ)) ++ ")\n".toList),
   (.os, "delta = ".toList ++ number (∑ v ∈ Finset.Icc 1 w, ((size / v : ℕ) - (k v : ℤ))) ++ "\n".toList)]

example : (finalText "now\n".toList "1,2".toList 2 5 (fun v => 3 - v)).flatMap Prod.snd =
    "tempering parameters are found at now\n\n1,2\n1:2(3)\n2:1(1)\ndelta = 4\n".toList := by decide +kernel

theorem finalLines_text {σ : Type} (V : VOps σ) (t str : List Char) (veq : ℕ → ℕ) {d : ℤ} {w size : ℕ} (hw : V.width = w)
    (hs : V.mexp = size) (hd : d = ∑ v ∈ Finset.Icc 1 w, ((size / v : ℕ) - (veq (v - 1) : ℤ))) :
    finalLines V t str veq d = finalText t str w size (fun v => veq (v - 1)) := by
  subst hw hs
  unfold finalLines finalText kvLine
  rw [hd]

/-- The invariant holds of the generator that the tempering leaves. -/
theorem MidLines.inv {σ : Type} {V : VOps σ} {v1 v2 : Bool → σ → Option (σ × Out)} {lsb2 : Bool} {st1 st2 : σ → Option σ}
    {delta : σ → Option ℤ} {Inv : σ → Prop} (H : Honest V v1 v2 lsb2 st1 st2 delta Inv) {noLsb : Bool} {t1 : List Char}
    {veq veq' : ℕ → ℕ} {g g' : σ} {o : Out} (h : MidLines V v1 v2 lsb2 noLsb t1 veq g g' o veq') (hg : Inv g) : Inv g' := by
  obtain ⟨k0, d0, g1, o2, o3, o4, -, h1, h2, -⟩ := h
  have hg1 : Inv g1 := by
    cases noLsb with
    | true => rw [if_pos rfl] at h2; rw [h2.1]; exact hg
    | false =>
      rw [if_neg (by decide)] at h2
      refine (H.keep2 g g1 hg ?_).1
      rw [← H.same2 true, h2.1]; rfl
  refine H.keep1 g1 g' hg1 ?_
  rw [← H.same1 true, h1]; rfl

end MTT.Verbose

namespace MTT.MTDC

open Polynomial Text SearchText PIS Search Temper Verbose

variable {n r : ℕ} {mps : MPS} {prim : ℕ → (ZMod 2)[X] → Option Bool}

theorem table_spec {veq k : ℕ → ℕ} {d : ℤ} {mexp : ℕ} {g : St} (hg : Inv n r g) (hm : 1 ≤ g.mexp)
    (h : (vops mexp).table veq g = some (k, d)) :
    (∀ v, 1 ≤ v → v ≤ 32 → IsGreatest {k | Equidist (T n r (par g)) (if g.rev then OR n r (par g) else O n r (par g))
      (cyc (T n r (par g)) (den n r g)) v k} (k (v - 1))) ∧
    d = ∑ v ∈ Finset.Icc 1 32, ((g.mexp / v : ℕ) - (k (v - 1) : ℤ)) := by
  obtain ⟨q, e1, e2, e3⟩ := equidist hg hm veq
  have h' : (match getAllEquidist (ops g.mexp) Util.calc1posWrap32 g 32 g.mexp (32 * (33 * g.mexp) + 33) veq with
    | .ok r => some (r.veq, r.sum) | .error _ => none) = some (k, d) := h
  rw [e1] at h'
  simp only [Option.some.injEq, Prod.mk.injEq] at h'
  obtain ⟨rfl, rfl⟩ := h'
  exact ⟨e2, e3⟩

/-- **C110.**  The text of a search of `mt2 -v` that finds parameters ends with the parameters it leaves, the table of their dimensions of
equidistribution, and the sum of the defects. -/
theorem rtCallV_says (hmps : MinPolySeqSpec mps) {mexp : ℕ} (hprim : PrimOK prim mexp) (hm : mexp + r = 32 * n)
    (hr : r < 32) (hn3 : 3 ≤ n) {id : ℤ} (veq : ℕ → ℕ) (c : List Char × List Char × List Char) {fuel : ℕ}
    (hfuel : fuel ≤ 214748) (g : St) (hg : SInv n r id { g with pos := 2 }) (f : ℕ → BitVec 32) {x : RTOut St (ℕ → BitVec 32)} {out : Out}
    (h : rtCallV mps prim veq true c fuel mexp g f = some (.found x, out)) :
    ∃ m count g0 o k, out = notFound m ++ foundLines c.1 count (paramString g0) ++ o ++ finalText c.2.2 (paramString x.rand) 32 mexp k ∧
      m * (1000 * mexp) < count ∧ count ≤ (m + 1) * (1000 * mexp) ∧
      (∀ v, 1 ≤ v → v ≤ 32 → IsGreatest {k | Equidist (T n r (par x.rand)) (if x.rand.rev then OR n r (par x.rand) else O n r (par x.rand))
        (cyc (T n r (par x.rand)) (den n r x.rand)) v k} (k v)) ∧
      x.delta = ∑ v ∈ Finset.Icc 1 32, ((mexp / v : ℕ) - (k v : ℤ)) := by
  have h1 : 1 ≤ mexp := by omega
  have F := family hm hr hn3 id
  have key : ∀ b st, findLoop mps (searchOps mexp) prim (1000 * (searchOps mexp).gen.bitSize) fuel ⟨g, f, 0, 0⟩ = some (.ret b st) →
      Inv n r st.rand := fun b st h => by
    have h' := findLoop_ret_congr (s' := { g with pos := 2 }) (fun src => by
      show (setUpParam _ _ g).map _ = Option.map _ _
      rw [← setUpParam_pos _ _ g 2]) (by show 1 ≤ 1000 * mexp; omega) h
    exact ((findLoop_spec (P := Par) F hmps hprim _ fuel _ hg h').2 b st rfl).2.1.inv
  obtain ⟨m, count, g0, o, veq1, veq2, j1, j2, j3, j4, j5, j6⟩ :=
    (rtSearch_same (honest veq hm h1) true c.1 c.2.1 c.2.2 veq hfuel g f key).2 x out h
  have hi := MidLines.inv (honest veq hm h1) j5 (key _ _ j4)
  have hx : x.rand.mexp = mexp := by have := hi.mexp; omega
  obtain ⟨t1, t2⟩ := table_spec hi (by omega) j6
  rw [hx] at t2
  refine ⟨m, count, g0, o, fun v => veq2 (v - 1), ?_, j2, j3, t1, t2⟩
  rw [j1, finalLines_text (vops mexp) c.2.2 _ veq2 rfl rfl t2]
  rfl

end MTT.MTDC

namespace MTT.MTGP

open Polynomial Text SearchText PIS Search Temper Verbose

variable {n r : ℕ} {mps : MPS} {prim : ℕ → (ZMod 2)[X] → Option Bool}

theorem table_spec {J : Junk} {veq k : ℕ → ℕ} {d : ℤ} {mexp : ℕ} {g : St} (hg : Inv n r g)
    (h : (vops J mexp).table veq g = some (k, d)) :
    (∀ v, 1 ≤ v → v ≤ 32 → IsGreatest {k | Equidist (T n r (par g)) (if g.rev then OR n r (par g) else O n r (par g))
      (cyc (T n r (par g)) (den n r g)) v k} (k (v - 1))) ∧
    d = ∑ v ∈ Finset.Icc 1 32, ((g.mexp / v : ℕ) - (k (v - 1) : ℤ)) := by
  have hc : Inv n r (clone J.cmask g) :=
    ⟨hg.size, hg.mexp, hg.rlt, hg.idx, hg.mask, hg.pos2, hg.posn, hg.p, hg.tp⟩
  obtain ⟨q, e1, e2, e3⟩ := equidist hc veq
  have e1' : getAllEquidist (ops g.mexp) Util.calc1posWrap32 (clone J.cmask g) 32 g.mexp (32 * (33 * g.mexp) + 33) veq = .ok q := e1
  have h' : (match getAllEquidist (ops g.mexp) Util.calc1posWrap32 (clone J.cmask g) 32 g.mexp (32 * (33 * g.mexp) + 33) veq with
    | .ok r => some (r.veq, r.sum) | .error _ => none) = some (k, d) := h
  rw [e1'] at h'
  simp only [Option.some.injEq, Prod.mk.injEq] at h'
  obtain ⟨rfl, rfl⟩ := h'
  exact ⟨e2, e3⟩

/-- **C110.**  The same for `MTGP32dc -v`. -/
theorem allSearchV_says (hmps : MinPolySeqSpec mps) {mexp : ℕ} (hprim : PrimOK prim mexp) (hm : mexp + r = 32 * n) (hr : r < 32)
    (hsz : SizeOK n) (hn : 1 < n) {id : BitVec 32} (J : Junk) (c : List Char × List Char × List Char) {fuel : ℕ}
    (hfuel : fuel ≤ 214748) (g : St) (hg : SInv n r id { g with pos := 2 }) (f : ℕ → BitVec 32) {x : RTOut St (ℕ → BitVec 32)} {out : Out}
    (h : allSearchV mps prim J true c fuel mexp g f = some (.found x, out)) :
    ∃ m count g0 o k, out = notFound m ++ foundLines c.1 count (paramString g0) ++ o ++ finalText c.2.2 (paramString x.rand) 32 mexp k ∧
      m * (1000 * mexp) < count ∧ count ≤ (m + 1) * (1000 * mexp) ∧
      (∀ v, 1 ≤ v → v ≤ 32 → IsGreatest {k | Equidist (T n r (par x.rand)) (if x.rand.rev then OR n r (par x.rand) else O n r (par x.rand))
        (cyc (T n r (par x.rand)) (den n r x.rand)) v k} (k v)) ∧
      x.delta = ∑ v ∈ Finset.Icc 1 32, ((mexp / v : ℕ) - (k v : ℤ)) := by
  have F := family hm hr hsz hn id
  have key : ∀ b st, findLoop mps (searchOps mexp) prim (1000 * (searchOps mexp).gen.bitSize) fuel ⟨g, f, 0, 0⟩ = some (.ret b st) →
      Inv n r st.rand := fun b st h => by
    have h' := findLoop_ret_congr (s' := { g with pos := 2 }) (fun src => by
      show (setUpParam _ _ _ _ _ g).map _ = Option.map _ _
      rw [← setUpParam_pos _ _ _ _ _ g 2]) (by show 1 ≤ 1000 * mexp; omega) h
    exact ((findLoop_spec (P := Par) F hmps hprim _ fuel _ hg h').2 b st rfl).2.1.inv
  obtain ⟨m, count, g0, o, veq1, veq2, j1, j2, j3, j4, j5, j6⟩ :=
    (rtSearch_same (honest J hm) false c.1 c.2.1 c.2.2 J.veq hfuel g f key).2 x out h
  have hi := MidLines.inv (honest J hm) j5 (key _ _ j4)
  have hx : x.rand.mexp = mexp := by have := hi.mexp; omega
  obtain ⟨t1, t2⟩ := table_spec hi j6
  rw [hx] at t2
  refine ⟨m, count, g0, o, fun v => veq2 (v - 1), ?_, j2, j3, t1, t2⟩
  rw [j1, finalLines_text (vops J mexp) c.2.2 _ veq2 rfl rfl t2]
  rfl

end MTT.MTGP

namespace MTT.RMT

open Polynomial Text SearchText PIS Search Temper Parity Verbose

variable {n mexp : ℕ} {mps : MPS} {kernel : KernelFn} {one : ℕ → Option (BitVec 64)}

theorem table_spec {veq k : ℕ → ℕ} {d : ℤ} {g : St} (hg : Inv n g) (h : (vops n).table veq g = some (k, d)) :
    (∀ v, 1 ≤ v → v ≤ 64 → IsGreatest {k | Equidist (T n (par g)) (if g.rev then OR n (par g) else O n (par g))
      (cyc (T n (par g)) (den n g)) v k} (k (v - 1))) ∧
    d = ∑ v ∈ Finset.Icc 1 64, ((n * 64 / v : ℕ) - (k (v - 1) : ℤ)) := by
  obtain ⟨q, e1, e2, e3⟩ := equidist hg veq
  have h' : (match getAllEquidist (ops n) Util.calc1posWrap64 g 64 (n * 64) (64 * (65 * (n * 64)) + 65) veq with
    | .ok r => some (r.veq, r.sum) | .error _ => none) = some (k, d) := h
  rw [e1] at h'
  simp only [Option.some.injEq, Prod.mk.injEq] at h'
  obtain ⟨rfl, rfl⟩ := h'
  exact ⟨e2, e3⟩

theorem mid_inv {veq veq0 veq1 : ℕ → ℕ} {t1 : List Char} {g g' : St} {o : Out}
    (h : MidLines (vops n) (partialBitPatternV (temperOps veq n) st64 64) (partialBitPatternV (temperOps veq n) st64 64) false false t1
      veq0 g g' o veq1) (hg : Inv n g) : Inv n g' :=
  h.inv (honest n veq) hg

/-- **C110.**  The same for `rmt64dc -v`; the table is that of the object before the last `getParamString` clears bits of its masks that
have no effect, and for the whole state. -/
theorem allSearchV_says (hm : MinPolySeqSpec mps) (hK : KernelSpec kernel) (hmexp : mexp ∈ allowedMexp) (junk : BitVec 64)
    (veq : ℕ → ℕ) (c : List Char × List Char × List Char) {fuel : ℕ} (hfuel : fuel ≤ 214748) {g : St}
    (hg : SInv mexp { g with pos := 0 }) (hcl : getParamString g = g) (src : ℕ → BitVec 64) {t : St} {src' : ℕ → BitVec 64} {d : ℤ} {out : Out}
    (h : allSearchV mps kernel one junk veq true c fuel mexp g src = some (.found t src' d, out)) :
    ∃ m count g0 t' o k, out = notFound m ++ foundLines c.1 count (paramString g0).2 ++ o ++
        finalText c.2.2 (paramString t).2 64 ((mexp / 64 + 1) * 64) k ∧
      m * (1000 * ((mexp / 64 + 1) * 64)) < count ∧ count ≤ (m + 1) * (1000 * ((mexp / 64 + 1) * 64)) ∧ t = getParamString t' ∧
      (∀ v, 1 ≤ v → v ≤ 64 → IsGreatest {k | Equidist (T (mexp / 64 + 1) (par t')) (if t'.rev then OR (mexp / 64 + 1) (par t')
        else O (mexp / 64 + 1) (par t')) (cyc (T (mexp / 64 + 1) (par t')) (den (mexp / 64 + 1) t')) v k} (k v)) ∧
      d = ∑ v ∈ Finset.Icc 1 64, (((mexp / 64 + 1) * 64 / v : ℕ) - (k v : ℤ)) := by
  have hS := (allSearchV_same hm hK hmexp junk veq true c hfuel hg hcl src).2.2 rfl t src' d out h
  clear h hg hcl
  unfold Says at hS
  obtain ⟨m, count, g0, f, v, g1, g2, t', o, veq1, veq2, j1, j2, j3, -, -, j6, j7, j8, j9⟩ := hS
  have hi := mid_inv j7 j6
  obtain ⟨t1, t2⟩ := table_spec hi j8
  refine ⟨m, count, g0, t', o, fun v => veq2 (v - 1), ?_, j2, j3, j9, t1, t2⟩
  have hs : (paramString t').2 = (paramString t).2 := by
    rw [j9]
    unfold paramString
    rw [getParamString_twice]
  rw [j1, hs, finalLines_text (vops (mexp / 64 + 1)) c.2.2 _ veq2 rfl rfl t2]
  rfl

end MTT.RMT
