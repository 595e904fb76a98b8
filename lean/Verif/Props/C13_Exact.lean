import Verif.Proofs.GTreeExact
import Verif.Props.C13_C15_GTree

/-! # C13: what the batch matcher for dotted globs reports, in every case -/

namespace GoMatcher

namespace C13

/-- Whether the part is literal, and its normal form: what the tree looks at to find a child. -/
def kind (a : Glob) : Bool × Str := (a.items.length = 0, a.node)

/-- The part that the tree uses for part `k` of `x`: part `k` of the first glob of the list that has
as many parts as `x` and the same parts up to and including `k`, as far as `kind` goes. -/
def partInTree (L : List (GGlob × Int)) (x : GGlob) (k : Nat) : Option Glob :=
  (L.find? fun y => y.1.parts.length = x.parts.length ∧
    (y.1.parts.take (k + 1)).map kind = (x.parts.take (k + 1)).map kind).bind fun y => y.1.parts[k]?

/-- `x` is reported for these parts: there are as many of them, a literal part of `x` is the same
text, and for a wild part the part in the tree matches. -/
def Reported (L : List (GGlob × Int)) (x : GGlob) (ps : List Str) : Prop :=
  x.parts.length = ps.length ∧ ∀ k a p, x.parts[k]? = some a → ps[k]? = some p →
    if a.items.length = 0 then a.node = p else ∃ b, partInTree L x k = some b ∧ b.matches p = .ok true

theorem prefix_take (xs ys : List GTree.Key) (k : Nat) (y : GTree.Key) (hy : ys[k]? = some y) :
    ys.take k ++ [y] <+: xs ↔ xs.take (k + 1) = ys.take (k + 1) := by
  obtain ⟨hk, rfl⟩ := List.getElem?_eq_some_iff.1 hy
  rw [List.take_succ_eq_append_getElem hk, List.prefix_iff_eq_take, eq_comm]
  have : (ys.take k ++ [ys[k]]).length = k + 1 := by simp; omega
  rw [this]

theorem repOf_partInTree (L : List (GGlob × Int)) (x : GGlob) (k : Nat) (a : Glob)
    (ha : x.parts[k]? = some a) (h0 : a.items.length ≠ 0) :
    repOf L x.parts.length ((x.parts.take k).map GTree.key) a.node = partInTree L x k := by
  obtain ⟨hk, _⟩ := List.getElem?_eq_some_iff.1 ha
  unfold repOf partInTree
  have hlen : ((x.parts.take k).map GTree.key).length = k := by simp; omega
  rw [hlen]
  congr 2
  funext y
  congr 1
  apply propext
  refine and_congr_right fun _ => ?_
  have hkey : GTree.key a = (false, a.node) := by simp [GTree.key, h0]
  have := prefix_take (y.1.parts.map GTree.key) (x.parts.map GTree.key) k (false, a.node)
    (by rw [List.getElem?_map, ha, ← hkey]; rfl)
  simp only [← List.map_take] at this
  exact this

theorem accK_reported (L : List (GGlob × Int)) (x : GGlob) (ps : List Str) :
    GTree.accK (fun pre n p => (repOf L ps.length pre n).any fun g => g.matches p = .ok true) [] x.parts ps
      = true ↔ Reported L x ps := by
  rw [accK_iff]
  unfold Reported
  refine and_congr_right fun hl => ?_
  refine forall_congr' fun k => forall_congr' fun a => forall_congr' fun p => ?_
  refine imp_congr_right fun ha => imp_congr_right fun hp => ?_
  by_cases h0 : a.items.length = 0
  · rw [if_pos h0, if_pos h0]
  · rw [if_neg h0, if_neg h0, List.nil_append, ← hl, repOf_partInTree L x k a ha h0]
    cases partInTree L x k <;> simp

open Classical in
/-- After any calls of `Add` and `AddGlob` with parsed globs: whenever `Match` returns for a path, the
calls of `Store` it makes are, in some order, those for the accepted globs that are `Reported` for the
parts of the path, and the counter is their number.  A path with an empty part reports nothing. -/
theorem match_exact (ops : List GOp) (hp : ∀ op ∈ ops, op.Parsed) :
    ∃ t L, runTree ops = .ok (t, L) ∧ ∀ path r, t.matches path = .ok r →
      r.2 = r.1.length ∧ r.1.Perm
        ((L.filter fun x => path ≠ [] ∧ (∀ p ∈ pathSplit path, p ≠ []) ∧ Reported L x.1 (pathSplit path)).map
          fun x => (x.1.node, x.2)) := by
  obtain ⟨t, L, hr, hI⟩ := runOps_exact ops hp {} [] exactInv_empty
  refine ⟨t, L, hr, fun path r hm => ?_⟩
  by_cases h0 : path = []
  · subst h0
    cases hm
    refine ⟨rfl, ?_⟩
    rw [List.filter_eq_nil_iff.2]
    · simp
    · intro x _; simp
  have hsp : pathSplit path = splitByte (trimDot path) 46 := by rw [pathSplit_eq, if_neg h0]
  rw [matches_at t path h0] at hm
  by_cases hne : ∀ p ∈ pathSplit path, p ≠ []
  · rw [matchItems_split _ _ _ (hI.wf _) (by rw [hsp]) (by rw [← hsp]; exact hne), ← hsp] at hm
    obtain ⟨e1, e2⟩ := matchByParts_evK (ρ := repOf L (pathSplit path).length) (pathSplit path)
      (by rw [hsp]; exact splitByte_ne_nil _ _) [] _ (hI.wf _) (hI.tidy _)
      (fun ks n => by rw [hI.items, List.nil_append]) r hm
    refine ⟨e2, ?_⟩
    rw [e1]
    refine (hI.evs _ _ _ rfl).trans ?_
    refine List.Perm.map _ (List.Perm.of_eq ?_)
    apply List.filter_congr
    intro x _
    rw [Bool.eq_iff_iff, accK_reported]
    simp only [decide_eq_true_eq]
    exact ⟨fun h => ⟨h0, hne, h⟩, fun h => h.2.2⟩
  · have he : [] ∈ pathSplit path := by
      apply Classical.byContradiction
      intro h
      apply hne
      rintro p hp rfl
      exact h hp
    have := matchItems_empty_ok _ _ _ (hI.wf _) (by rw [hsp]) (by rw [← hsp]; exact he) r hm
    subst this
    refine ⟨rfl, ?_⟩
    rw [List.filter_eq_nil_iff.2]
    · simp
    · intro x _
      simp only [decide_eq_true_eq]
      rintro ⟨_, h, _⟩
      exact hne h

open Classical in
/-- The same for `MatchByParts`, here also with empty parts. -/
theorem byParts_exact (ops : List GOp) (hp : ∀ op ∈ ops, op.Parsed) :
    ∃ t L, runTree ops = .ok (t, L) ∧ ∀ ps r, ps ≠ [] → t.matchByParts ps = .ok r →
      r.2 = r.1.length ∧ r.1.Perm ((L.filter fun x => Reported L x.1 ps).map fun x => (x.1.node, x.2)) := by
  obtain ⟨t, L, hr, hI⟩ := runOps_exact ops hp {} [] exactInv_empty
  refine ⟨t, L, hr, fun ps r hps hm => ?_⟩
  rw [byParts_at t ps hps] at hm
  obtain ⟨e1, e2⟩ := matchByParts_evK (ρ := repOf L ps.length) ps hps [] _ (hI.wf _) (hI.tidy _)
    (fun ks n => by rw [hI.items, List.nil_append]) r hm
  refine ⟨e2, ?_⟩
  rw [e1]
  refine (hI.evs _ _ _ rfl).trans ?_
  refine List.Perm.map _ (List.Perm.of_eq ?_)
  apply List.filter_congr
  intro x _
  rw [Bool.eq_iff_iff, accK_reported]
  simp

/-- `Match` returns if the accepted part globs answer on the parts of the path. -/
theorem match_returns (ops : List GOp) (hp : ∀ op ∈ ops, op.Parsed) :
    ∃ t L, runTree ops = .ok (t, L) ∧ ∀ path,
      (∀ x ∈ L, ∀ a ∈ x.1.parts, ∀ p ∈ pathSplit path, p ≠ [] → ∃ b, a.matches p = .ok b) →
      ∃ r, t.matches path = .ok r := by
  obtain ⟨t, L, hr, hI⟩ := runTree_inv ops hp
  refine ⟨t, L, hr, fun path hok => ?_⟩
  by_cases h0 : path = []
  · subst h0; exact ⟨_, rfl⟩
  have hsp : pathSplit path = splitByte (trimDot path) 46 := by rw [pathSplit_eq, if_neg h0]
  rw [matches_at t path h0]
  by_cases hne : ∀ p ∈ pathSplit path, p ≠ []
  · rw [matchItems_split _ _ _ (hI.wf _) (by rw [hsp]) (by rw [← hsp]; exact hne), ← hsp]
    apply matchByParts_returns _ (by rw [hsp]; exact splitByte_ne_nil _ _) _ (hI.wf _)
    rintro g ⟨x, hx, hg, _⟩ p hp'
    exact hok x hx g hg p hp' (hne p hp')
  · have he : [] ∈ pathSplit path := by
      apply Classical.byContradiction
      intro h
      apply hne
      rintro p hp rfl
      exact h hp
    refine ⟨_, matchItems_empty _ _ _ (hI.wf _) (by rw [hsp]) (by rw [← hsp]; exact he) ?_⟩
    rintro g ⟨x, hx, hg, _⟩ p hp' hp0
    rw [← hsp] at hp'
    exact hok x hx g hg p hp' hp0

/-- The parts before part `k` of `x` fit the parts of the path; `Reported` up to `k`. -/
def Passed (L : List (GGlob × Int)) (x : GGlob) (ps : List Str) (k : Nat) : Prop :=
  x.parts.length = ps.length ∧ ∀ j a p, j < k → x.parts[j]? = some a → ps[j]? = some p →
    if a.items.length = 0 then a.node = p else ∃ b, partInTree L x j = some b ∧ b.matches p = .ok true

/-- Every part glob that is asked answers. -/
def Answers (L : List (GGlob × Int)) (ps : List Str) : Prop :=
  ∀ x ∈ L, ∀ k a p, Passed L x.1 ps k → x.1.parts[k]? = some a → ps[k]? = some p → a.items.length ≠ 0 →
    ∃ b v, partInTree L x.1 k = some b ∧ b.matches p = .ok v

/-- Every part glob that is asked before the first empty part answers. -/
def AnswersStart (L : List (GGlob × Int)) (ps : List Str) : Prop :=
  ∀ x ∈ L, ∀ k a p, (∀ q ∈ ps.take (k + 1), q ≠ []) → Passed L x.1 ps k → x.1.parts[k]? = some a →
    ps[k]? = some p → a.items.length ≠ 0 → ∃ b v, partInTree L x.1 k = some b ∧ b.matches p = .ok v

/-- What the tree asks, at the depths `Q`. -/
theorem asked_answers {t : GGlobTree} {L : List (GGlob × Int)} (hI : ExactInv t L) (ps : List Str)
    (Q : Nat → Prop) :
    (∀ ks m p rest g,
      GTree.walk (fun pre n p => (repOf L ps.length pre n).any fun g => g.matches p = .ok true) [] ks ps =
        some (p :: rest) → Q ks.length → GTree.itemAt ks m (t.at ps.length) = some g → ∃ b, g.matches p = .ok b) ↔
    ∀ x ∈ L, ∀ k a p, Q k → Passed L x.1 ps k → x.1.parts[k]? = some a → ps[k]? = some p →
      a.items.length ≠ 0 → ∃ b v, partInTree L x.1 k = some b ∧ b.matches p = .ok v := by
  constructor
  · intro h x hx k a p hQ hpass ha hp h0
    obtain ⟨hl, hpass⟩ := hpass
    obtain ⟨hk, _⟩ := List.getElem?_eq_some_iff.1 ha
    obtain ⟨hk', hp'⟩ := List.getElem?_eq_some_iff.1 hp
    have hlen : ((x.1.parts.take k).map GTree.key).length = k := by simp; omega
    have hw := (GoMatcher.walk_iff (N := fun pre n p => (repOf L ps.length pre n).any fun g => g.matches p = .ok true)
      [] ((x.1.parts.take k).map GTree.key) ps (p :: ps.drop (k + 1))).2 (by
        refine ⟨by omega, by rw [hlen, List.drop_eq_getElem_cons hk', hp'], ?_⟩
        intro j b n q hj hq
        rw [List.getElem?_map] at hj
        obtain ⟨c, hc, hc2⟩ := Option.map_eq_some_iff.1 hj
        have hjk : j < k := by
          have := (List.getElem?_eq_some_iff.1 hc).1
          simp at this
          omega
        rw [List.getElem?_take_of_lt hjk] at hc
        have h1 := hpass j c q hjk hc hq
        have hkey : GTree.key c = (decide (c.items.length = 0), c.node) := rfl
        rw [hkey] at hc2
        cases hc2
        by_cases h0 : c.items.length = 0
        · simpa [h0] using h1
        · rw [if_neg h0] at h1
          obtain ⟨b, hb1, hb2⟩ := h1
          have hne : ¬ (decide (c.items.length = 0) = true) := by simpa using h0
          rw [if_neg hne, List.nil_append, ← List.map_take, List.take_take, Nat.min_eq_left (by omega), ← hl,
            repOf_partInTree L x.1 j c hc h0, hb1]
          simp [hb2])
    have hrep := repOf_partInTree L x.1 k a ha h0
    have hfound : ∃ b, partInTree L x.1 k = some b := by
      unfold partInTree
      cases hf : L.find? fun y => y.1.parts.length = x.1.parts.length ∧
          (y.1.parts.take (k + 1)).map kind = (x.1.parts.take (k + 1)).map kind with
      | none =>
        have := List.find?_eq_none.1 hf x hx
        simp at this
      | some y =>
        have hy := List.find?_some hf
        simp only [decide_eq_true_eq] at hy
        exact ⟨_, List.getElem?_eq_getElem (by omega)⟩
    obtain ⟨b, hb⟩ := hfound
    obtain ⟨v, hv⟩ := h _ a.node p _ b hw (by rw [hlen]; exact hQ) (by rw [hI.items, ← hl, hrep, hb])
    exact ⟨b, v, hb, hv⟩
  · intro h ks m p rest g hw hQ hg
    rw [hI.items] at hg
    have hg' := hg
    unfold repOf at hg
    obtain ⟨x, hx, hxg⟩ := Option.bind_eq_some_iff.1 hg
    have hx1 := List.mem_of_find?_eq_some hx
    have hx2 := List.find?_some hx
    simp only [decide_eq_true_eq] at hx2
    obtain ⟨hl, hpre⟩ := hx2
    obtain ⟨hw1, hw2, hw3⟩ := (GoMatcher.walk_iff _ _ _ _).1 hw
    have htake : ks ++ [(false, m)] = (x.1.parts.map GTree.key).take (ks.length + 1) := by
      have := List.prefix_iff_eq_take.1 hpre
      simpa using this
    have hkeys : ∀ j, j ≤ ks.length → (x.1.parts.map GTree.key)[j]? = (ks ++ [(false, m)])[j]? := by
      intro j hj
      rw [htake, List.getElem?_take_of_lt (by omega)]
    have hks : ∀ j, j ≤ ks.length → ks.take j = (x.1.parts.take j).map GTree.key := by
      intro j hj
      have := congrArg (List.take j) htake
      rw [List.take_append_of_le_length hj, List.take_take, Nat.min_eq_left (by omega), ← List.map_take] at this
      exact this
    have hgk := hkeys ks.length (Nat.le_refl _)
    rw [List.getElem?_map, hxg] at hgk
    simp only [Option.map_some, List.getElem?_concat_length, Option.some.injEq] at hgk
    have hgk' : (decide (g.items.length = 0), g.node) = (false, m) := hgk
    cases hgk2 : decide (g.items.length = 0) with
    | true => rw [hgk2] at hgk'; cases hgk'
    | false =>
      rw [hgk2] at hgk'
      cases hgk'
      have h0 : g.items.length ≠ 0 := by simpa using hgk2
      have hp : ps[ks.length]? = some p := by
        have := congrArg (fun l => l[0]?) hw2
        simpa using this
      have hpass : Passed L x.1 ps ks.length := by
        refine ⟨hl, ?_⟩
        intro j a q hj ha hq
        have hkj := hkeys j (by omega)
        rw [List.getElem?_map, ha, List.getElem?_append_left hj] at hkj
        have h1 := hw3 j _ _ q hkj.symm hq
        by_cases ha0 : a.items.length = 0
        · rw [if_pos ha0]
          simpa [GTree.key, ha0] using h1
        · rw [if_neg ha0]
          have hne : ¬ (decide (a.items.length = 0) = true) := by simpa using ha0
          change if decide (a.items.length = 0) = true then _ else _ at h1
          rw [if_neg hne, List.nil_append, hks j (by omega)] at h1
          have hrep := repOf_partInTree L x.1 j a ha ha0
          rw [hl] at hrep
          have h2 : ((repOf L ps.length ((x.1.parts.take j).map GTree.key) a.node).any
            fun g => g.matches q = .ok true) = true := h1
          rw [hrep] at h2
          cases hpt : partInTree L x.1 j with
          | none => rw [hpt] at h2; cases h2
          | some b => rw [hpt] at h2; exact ⟨b, rfl, by simpa using h2⟩
      obtain ⟨b, v, hb1, hb2⟩ := h x hx1 ks.length g p hQ hpass hxg hp h0
      have hrep := repOf_partInTree L x.1 ks.length g hxg h0
      rw [hl, ← hks _ (Nat.le_refl _), List.take_length] at hrep
      rw [hrep, hb1] at hg'
      cases hg'
      exact ⟨v, hb2⟩

theorem returns_answers {t : GGlobTree} {L : List (GGlob × Int)} (hI : ExactInv t L) (ps : List Str)
    (hps : ps ≠ []) : (∃ r, (t.at ps.length).matchByParts ps = .ok r) ↔ Answers L ps := by
  rw [matchByParts_iff (ρ := repOf L ps.length)
    (N := fun pre n p => (repOf L ps.length pre n).any fun g => g.matches p = .ok true)
    (fun _ _ _ => rfl) ps hps [] _ (hI.wf _) (hI.tidy _) (fun ks n => by rw [hI.items, List.nil_append])]
  have := asked_answers hI ps (fun _ => True)
  simpa [Answers] using this

/-- `MatchByParts` returns exactly if every part glob that is asked answers. -/
theorem byParts_returns_iff (ops : List GOp) (hp : ∀ op ∈ ops, op.Parsed) :
    ∃ t L, runTree ops = .ok (t, L) ∧ ∀ ps, ps ≠ [] →
      ((∃ r, t.matchByParts ps = .ok r) ↔ Answers L ps) := by
  obtain ⟨t, L, hr, hI⟩ := runOps_exact ops hp {} [] exactInv_empty
  refine ⟨t, L, hr, fun ps hps => ?_⟩
  rw [byParts_at t ps hps]
  exact returns_answers hI ps hps

/-- `Match` returns exactly if every part glob that is asked before the first empty part of the path
answers. -/
theorem match_returns_iff (ops : List GOp) (hp : ∀ op ∈ ops, op.Parsed) :
    ∃ t L, runTree ops = .ok (t, L) ∧ ∀ path, path ≠ [] →
      ((∃ r, t.matches path = .ok r) ↔ AnswersStart L (pathSplit path)) := by
  obtain ⟨t, L, hr, hI⟩ := runOps_exact ops hp {} [] exactInv_empty
  refine ⟨t, L, hr, fun path h0 => ?_⟩
  have hsp : pathSplit path = splitByte (trimDot path) 46 := by rw [pathSplit_eq, if_neg h0]
  have e := matchItems_iff (ρ := repOf L (pathSplit path).length)
    (N := fun pre n p => (repOf L (pathSplit path).length pre n).any fun g => g.matches p = .ok true)
    (fun _ _ _ => rfl) (pathSplit path).length (trimDot path) (by rw [hsp]) [] _ (hI.wf _) (hI.tidy _)
    (fun ks n => by rw [hI.items, List.nil_append])
  rw [← hsp] at e
  rw [matches_at t path h0, e]
  exact asked_answers hI _ fun k => ∀ q ∈ (pathSplit path).take (k + 1), q ≠ []

/-- For paths with no empty part the two agree. -/
theorem answersStart_iff (L : List (GGlob × Int)) (ps : List Str) (h : ∀ p ∈ ps, p ≠ []) :
    AnswersStart L ps ↔ Answers L ps :=
  ⟨fun H x hx k a p => H x hx k a p fun q hq => h q (List.mem_of_mem_take hq),
    fun H x hx k a p _ => H x hx k a p⟩

-- `*{?,b}` panics on `b`; behind an empty part it is not asked.
example : report [.add (b!"x*.*{?,b}") 1] (b!"x.b") = none ∧
    report [.add (b!"x*.?.*{?,b}") 1] (b!"x..b") = some ([], 0) ∧
    report [.add (b!"*{?,b}.?.x") 1] (b!"b..x") = none := by decide +kernel

/-- Nothing but accepted globs is reported, each with its own index. -/
theorem reported_accepted (ops : List GOp) (hp : ∀ op ∈ ops, op.Parsed) :
    ∃ t L, runTree ops = .ok (t, L) ∧ ∀ path r, t.matches path = .ok r →
      ∀ e ∈ r.1, ∃ x ∈ L, e = (x.1.node, x.2) ∧ x.1.parts.length = (pathSplit path).length := by
  obtain ⟨t, L, hr, h⟩ := match_exact ops hp
  refine ⟨t, L, hr, fun path r hm e he => ?_⟩
  obtain ⟨x, hx, rfl⟩ := List.mem_map.1 (((h path r hm).2.mem_iff).1 he)
  obtain ⟨hx1, hx2⟩ := List.mem_filter.1 hx
  simp only [decide_eq_true_eq] at hx2
  exact ⟨x, hx1, rfl, hx2.2.2.1⟩

/-- A part glob that panics is only asked if the parts before it fit. -/
example : report [.add (b!"a?.*{?,b}") 1, .add (b!"*.b") 2] (b!"ax.b") = none ∧
    report [.add (b!"a?.*{?,b}") 1, .add (b!"*.b") 2] (b!"cx.b") = some ([(b!"*.b", 2)], 1) := by
  decide +kernel

/-! ## The first glob decides -/

/-- The second glob goes by the part of the first one, and so only matches what that part matches. -/
example : (runTree [.add (b!"{a[*],b?}.c") 1, .add (b!"{a*,b?}.e") 2] >>= fun x =>
    match x.2 with
    | [_, y] => .ok ((partInTree x.2 y.1 0).map Glob.glob, (partInTree x.2 y.1 1).map Glob.glob)
    | _ => .panic) = .ok (some (b!"{a[*],b?}"), some (b!"e")) := by decide +kernel

example : report [.add (b!"{a[*],b?}.c") 1, .add (b!"{a*,b?}.e") 2] (b!"a*.e") =
    some ([(b!"{a*,b?}.e", 2)], 1) := by decide +kernel

/-- The other way round. -/
example : report [.add (b!"{a*,b?}.e") 2, .add (b!"{a[*],b?}.c") 1] (b!"ax.c") =
    some ([(b!"{a*,b?}.c", 1)], 1) := by decide +kernel

end C13

end GoMatcher
