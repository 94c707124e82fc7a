import Verif.Samples.MT2FirstProps
import Verif.Samples.MTGPFirstProps

/-!
# C126: runs of `mt2` and `MTGP32dc` can be repeated, extended and split
-/

namespace MTT.MTDC

open Polynomial PIS Search MTRec

theorem linesOf_prefix (mexp : ℕ) (id maxDelta : ℤ) (f : ℕ → BitVec 32) {M M' : ℕ} (h : M ≤ M') :
    linesOf mexp id maxDelta f M <+: linesOf mexp id maxDelta f M' := by
  obtain ⟨k, rfl⟩ := Nat.exists_eq_add_of_le h
  rw [linesOf_add]
  exact List.prefix_append ..

/-- **C126.**  With a larger count `mt2` begins with the same lines, whatever is not initialised. -/
theorem main_extends {mps mps' : MPS} (hmps : MinPolySeqSpec mps) (hmps' : MinPolySeqSpec mps') {mexp : ℕ} (hmexp : mexp ∈ allowedMexp)
    (id maxDelta : ℤ) (f : ℕ → BitVec 32) {veq veq' : ℕ → ℕ} {fuel fuel' turns turns' : ℕ} {count count' : ℤ} (hc : count ≤ count')
    {junkPos junkPos' : ℕ} {junkA junkA' : BitVec 32} {junk junk' : ℕ → BitVec 32} {res res' : Option (List Line)}
    (h : main mps (Period.primitivityOp none) veq fuel turns mexp id count maxDelta junkPos junkA junk f = some res)
    (h' : main mps' (Period.primitivityOp none) veq' fuel' turns' mexp id count' maxDelta junkPos' junkA' junk' f = some res') :
    ∃ L L', res = some L ∧ res' = some L' ∧ L.length = count.toNat ∧ L'.length = count'.toNat ∧ L <+: L' := by
  obtain ⟨M, h1, h2, h3⟩ := main_lines hmps hmexp _ _ _ _ _ _ _ _ _ _ h
  obtain ⟨M', g1, g2, g3⟩ := main_lines hmps' hmexp _ _ _ _ _ _ _ _ _ _ h'
  refine ⟨_, _, h1, g1, h2, g2, linesOf_prefix _ _ _ _ ?_⟩
  by_contra hlt
  have := h3 M' (by omega)
  omega

/-- **C126.**  The same run gives the same lines. -/
theorem main_repeats {mps mps' : MPS} (hmps : MinPolySeqSpec mps) (hmps' : MinPolySeqSpec mps') {mexp : ℕ} (hmexp : mexp ∈ allowedMexp)
    (id maxDelta : ℤ) (f : ℕ → BitVec 32) {veq veq' : ℕ → ℕ} {fuel fuel' turns turns' : ℕ} {count : ℤ}
    {junkPos junkPos' : ℕ} {junkA junkA' : BitVec 32} {junk junk' : ℕ → BitVec 32} {res res' : Option (List Line)}
    (h : main mps (Period.primitivityOp none) veq fuel turns mexp id count maxDelta junkPos junkA junk f = some res)
    (h' : main mps' (Period.primitivityOp none) veq' fuel' turns' mexp id count maxDelta junkPos' junkA' junk' f = some res') :
    res = res' := by
  obtain ⟨L, L', e1, e2, h1, h2, h3⟩ := main_extends hmps hmps' hmexp id maxDelta f le_rfl h h'
  rw [e1, e2, h3.eq_of_length (h1.trans h2.symm)]

/-- **C126.**  If the run ends, so does every run with a smaller count. -/
theorem main_shorter {mps mps' : MPS} (hmps : MinPolySeqSpec mps) (hmps' : MinPolySeqSpec mps') {mexp : ℕ} (hmexp : mexp ∈ allowedMexp)
    (id maxDelta : ℤ) (f : ℕ → BitVec 32) {veq veq' : ℕ → ℕ} {fuel' turns' : ℕ} {count count' : ℤ} (hc : count ≤ count')
    {junkPos junkPos' : ℕ} {junkA junkA' : BitVec 32} {junk junk' : ℕ → BitVec 32} {res' : Option (List Line)}
    (h' : main mps' (Period.primitivityOp none) veq' fuel' turns' mexp id count' maxDelta junkPos' junkA' junk' f = some res') :
    ∃ N, ∀ fuel turns, N ≤ fuel → N ≤ turns →
      ∃ L, main mps (Period.primitivityOp none) veq fuel turns mexp id count maxDelta junkPos junkA junk f = some (some L) := by
  obtain ⟨M', g1, g2, g3⟩ := main_lines hmps' hmexp _ _ _ _ _ _ _ _ _ _ h'
  refine ⟨M' + 1, fun fuel turns h1 h2 => main_ends hmps hmexp _ _ _ _ _ _ _ _ _ _ M' (by omega) (by omega) ?_⟩
  rw [g2]
  omega

end MTT.MTDC

namespace MTT.MTGP

open Polynomial PIS Search

theorem id_next (id : BitVec 32) (i : ℕ) : id + BitVec.ofNat 32 (i + 1) = id + 1 + BitVec.ofNat 32 i := by
  rw [BitVec.ofNat_add, BitVec.add_assoc, BitVec.add_comm (BitVec.ofNat 32 i)]; rfl

section
variable {mps mps' mps'' : MPS} {prim prim' prim'' : ℕ → (ZMod 2)[X] → Option Bool} {mexp : ℕ}

theorem dcMain_found (hmps : MinPolySeqSpec mps) (hprim : PrimOK prim mexp) (h32 : mexp % 32 ≠ 0) (hsz : SizeOK (mexp / 32 + 1))
    {J : ℕ → Junk} {fuel : ℕ} {f : ℕ → BitVec 32} {count : ℕ} {id : BitVec 32} {r : Option (List Line)}
    (h : dcMain mps prim J fuel mexp f count id = some r) :
    ∃ m : ℕ → ℕ, ∀ i < count, m i < fuel * (1000 * mexp) ∧ IsFirst mexp (id + BitVec.ofNat 32 i) f (m i) := by
  induction count generalizing id r with
  | zero => exact ⟨fun _ => 0, fun i hi => by cases hi⟩
  | succ c ih =>
    have h0 : indexedSearch mps prim (J c) fuel mexp id f ≠ none := by
      intro e
      unfold dcMain at h
      rw [e] at h
      cases h
    have hfirst : ∃ m, m < fuel * (1000 * mexp) ∧ IsFirst mexp id f m := by
      by_contra hno
      exact h0 ((indexedSearch_first hmps hprim h32 hsz (J c) fuel id f).2 fun m hm hf => hno ⟨m, hm, hf⟩)
    obtain ⟨m, m1, m2⟩ := hfirst
    obtain ⟨l, -, l2⟩ := (indexedSearch_first hmps hprim h32 hsz (J c) fuel id f).1 m m1 m2
    unfold dcMain at h
    rw [l2] at h
    dsimp only at h
    obtain ⟨r', hr'⟩ : ∃ r', dcMain mps prim J fuel mexp f c (id + 1) = some r' := by
      cases e : dcMain mps prim J fuel mexp f c (id + 1) with
      | none => rw [e] at h; cases h
      | some r' => exact ⟨r', rfl⟩
    obtain ⟨k, hk⟩ := ih hr'
    refine ⟨fun i => if i = 0 then m else k (i - 1), fun i hi => ?_⟩
    cases i with
    | zero =>
      dsimp only
      rw [if_pos rfl, show id + BitVec.ofNat 32 0 = id from BitVec.add_zero id]
      exact ⟨m1, m2⟩
    | succ i =>
      dsimp only
      rw [if_neg (by omega), id_next, Nat.add_sub_cancel]
      exact hk i (by omega)

theorem map_some_inj {α : Type} {L L' : List α} (h : L.map some = L'.map some) : L = L' :=
  List.map_injective_iff.2 (Option.some_injective α) h

/-- **C126.**  A run of `MTGP32dc` for `a + b` ids prints the lines of a run for the first `a` ids followed by those of a run for the
other `b`, whatever is not initialised: the line of an id does not depend on the run. -/
theorem dcMain_split (hmps : MinPolySeqSpec mps) (hmps' : MinPolySeqSpec mps') (hmps'' : MinPolySeqSpec mps'')
    (hprim : PrimOK prim mexp) (hprim' : PrimOK prim' mexp) (hprim'' : PrimOK prim'' mexp) (h32 : mexp % 32 ≠ 0)
    (hsz : SizeOK (mexp / 32 + 1)) {J J' J'' : ℕ → Junk} {fuel fuel' fuel'' : ℕ} {f : ℕ → BitVec 32} {a b : ℕ} {id : BitVec 32}
    {r r' r'' : Option (List Line)} (h : dcMain mps prim J fuel mexp f (a + b) id = some r)
    (h' : dcMain mps' prim' J' fuel' mexp f a id = some r')
    (h'' : dcMain mps'' prim'' J'' fuel'' mexp f b (id + BitVec.ofNat 32 a) = some r'') :
    ∃ L L', r' = some L ∧ r'' = some L' ∧ L.length = a ∧ L'.length = b ∧ r = some (L ++ L') := by
  obtain ⟨m, hm⟩ := dcMain_found hmps hprim h32 hsz h
  obtain ⟨m', hm'⟩ := dcMain_found hmps' hprim' h32 hsz h'
  obtain ⟨m'', hm''⟩ := dcMain_found hmps'' hprim'' h32 hsz h''
  obtain ⟨K, k1, k2⟩ := dcMain_first hmps hprim h32 hsz J fuel f (a + b) id m hm
  obtain ⟨K', k1', k2'⟩ := dcMain_first hmps' hprim' h32 hsz J' fuel' f a id m' hm'
  obtain ⟨K'', k1'', k2''⟩ := dcMain_first hmps'' hprim'' h32 hsz J'' fuel'' f b _ m'' hm''
  rw [h, Option.some.injEq] at k1
  rw [h', Option.some.injEq] at k1'
  rw [h'', Option.some.injEq] at k1''
  refine ⟨K', K'', k1', k1'', ?_, ?_, ?_⟩
  · have := congrArg List.length k2'
    simpa using this
  · have := congrArg List.length k2''
    simpa using this
  · rw [k1]
    congr 1
    apply map_some_inj
    have e1 : ((List.range a).map fun i => lineAt mexp (id + BitVec.ofNat 32 i) f (m i)) =
        (List.range a).map fun i => lineAt mexp (id + BitVec.ofNat 32 i) f (m' i) := by
      refine List.map_congr_left fun i hi => ?_
      rw [List.mem_range] at hi
      rw [IsLeast.unique (hm i (by omega)).2 (hm' i hi).2]
    have e2 : ((List.range b).map fun i => lineAt mexp (id + BitVec.ofNat 32 (a + i)) f (m (a + i))) =
        (List.range b).map fun i => lineAt mexp (id + BitVec.ofNat 32 a + BitVec.ofNat 32 i) f (m'' i) := by
      refine List.map_congr_left fun i hi => ?_
      rw [List.mem_range] at hi
      have e : id + BitVec.ofNat 32 (a + i) = id + BitVec.ofNat 32 a + BitVec.ofNat 32 i := by
        rw [BitVec.ofNat_add, BitVec.add_assoc]
      have h1 := (hm (a + i) (by omega)).2
      rw [e] at h1
      rw [e, IsLeast.unique h1 (hm'' i hi).2]
    rw [List.map_append, k2, k2', k2'', List.range_add, List.map_append, List.map_map, e1, ← e2]
    rfl

/-- **C126.**  The same run of `MTGP32dc` gives the same lines. -/
theorem dcMain_repeats (hmps : MinPolySeqSpec mps) (hmps' : MinPolySeqSpec mps') (hprim : PrimOK prim mexp) (hprim' : PrimOK prim' mexp)
    (h32 : mexp % 32 ≠ 0) (hsz : SizeOK (mexp / 32 + 1)) {J J' : ℕ → Junk} {fuel fuel' : ℕ} {f : ℕ → BitVec 32} {count : ℕ}
    {id : BitVec 32} {r r' : Option (List Line)} (h : dcMain mps prim J fuel mexp f count id = some r)
    (h' : dcMain mps' prim' J' fuel' mexp f count id = some r') : r = r' := by
  obtain ⟨L, L', e1, e2, -, h2, e3⟩ := dcMain_split (a := count) (b := 0) hmps hmps' hmps hprim hprim' hprim h32 hsz h h'
    (J'' := J) (fuel'' := fuel) (r'' := some []) rfl
  rw [e3, e1, List.length_eq_zero_iff.1 h2, List.append_nil]

end

end MTT.MTGP
