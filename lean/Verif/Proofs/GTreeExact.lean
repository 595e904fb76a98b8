import Verif.Proofs.GTreeHist

/-! # The tree of dotted globs, with the matchers it really uses

A child of the tree keeps the part glob it was created with.  `itemAt` is the glob at a key path,
`evK` what a tree reports when the child at a key path answers by `N`. -/

namespace GoMatcher

open GTree

namespace GTree

/-- Literal or not, and the text. -/
abbrev Key := Bool × Str

/-- The glob of the wild child with text `n` below the path `ks`. -/
def itemAt : List Key → Str → GTree → Option Glob
  | [], n, .node _ _ _ cs => (cs.find? fun c => c.nodeOf = some n).bind GTree.item
  | (true, k) :: ks, n, .node _ _ cm _ => (GoMap.get cm k).bind (itemAt ks n)
  | (false, k) :: ks, n, .node _ _ _ cs => (cs.find? fun c => c.nodeOf = some k).bind (itemAt ks n)

/-- Reported entries for the given parts; `pre` is the path down to the tree. -/
def evK (N : List Key → Str → Str → Bool) : List Key → List Str → GTree → Events
  | _, [], t => (storeTerm t).1
  | pre, p :: ps, .node _ _ cm cs =>
    (match GoMap.get cm p with
      | some c => evK N (pre ++ [(true, p)]) ps c
      | none => []) ++
    cs.flatMap fun c => match c.nodeOf with
      | some n => if N pre n p then evK N (pre ++ [(false, n)]) ps c else []
      | none => []

/-- The parts of a glob against parts of a path. -/
def accK (N : List Key → Str → Str → Bool) : List Key → List Glob → List Str → Bool
  | _, [], [] => true
  | pre, g :: gs, p :: ps =>
    (if g.items.length = 0 then g.node = p else N pre g.node p) && accK N (pre ++ [key g]) gs ps
  | _, _, _ => false

/-- No two wild children have the same text. -/
inductive Tidy : GTree → Prop
  | mk {i tm cm cs} (hd : cs.Pairwise fun c d => c.nodeOf ≠ d.nodeOf) (hm : ∀ x ∈ cm, Tidy x.2)
      (hc : ∀ c ∈ cs, Tidy c) : Tidy (.node i tm cm cs)

end GTree

/-! ## Insertion -/

theorem leaf_evK (N : List Key → Str → Str → Bool) (pre : List Key) (ps : List Str) (i : Option Glob) :
    evK N pre ps (GTree.leaf i) = [] := by
  cases ps <;> simp [evK, GTree.leaf, storeTerm, GTree.term, GoMap.get]

theorem leaf_itemAt (ks : List Key) (n : Str) (i : Option Glob) : itemAt ks n (GTree.leaf i) = none := by
  rcases ks with _ | ⟨⟨b, k⟩, ks⟩
  · rfl
  · cases b <;> simp [itemAt, GTree.leaf, GoMap.get]

theorem leaf_tidy (i : Option Glob) : (GTree.leaf i).Tidy :=
  .mk List.Pairwise.nil (by rintro _ ⟨⟩) (by rintro _ ⟨⟩)

/-- The child with text `k` after an insertion. -/
theorem find_insertChilds (cs : List GTree) (g : Glob) (gs : List Glob) (e : Str × Int) (k : Str) :
    ((insertChilds (fun c => c.insert gs e) g cs).find? fun c => c.nodeOf = some k) =
      if k = g.node then some (((cs.find? fun c => c.nodeOf = some k).getD (GTree.leaf (some g))).insert gs e)
      else cs.find? fun c => c.nodeOf = some k := by
  induction cs with
  | nil =>
    rw [insertChilds, List.find?_cons]
    by_cases hk : k = g.node
    · rw [if_pos hk, insert_nodeOf]
      simp [nodeOf, GTree.leaf, GTree.item, hk]
    · rw [if_neg hk, insert_nodeOf]
      simp [nodeOf, GTree.leaf, GTree.item, Ne.symm hk]
  | cons c cs ih =>
    rw [insertChilds]
    by_cases h : (c.item.map Glob.node) = some g.node
    · rw [if_pos h]
      have h' : c.nodeOf = some g.node := h
      by_cases hk : k = g.node
      · rw [if_pos hk, List.find?_cons, insert_nodeOf, h', hk]
        simp [h']
      · rw [if_neg hk, List.find?_cons, List.find?_cons, insert_nodeOf, h']
        simp [Ne.symm hk]
    · rw [if_neg h]
      have h' : c.nodeOf ≠ some g.node := h
      rw [List.find?_cons, List.find?_cons, ih]
      by_cases hk : k = g.node
      · rw [if_pos hk, if_pos hk]
        have : decide (c.nodeOf = some k) = false := by rw [hk]; simpa using h'
        rw [this]
      · rw [if_neg hk, if_neg hk]

/-- What an insertion does to the globs in the tree. -/
theorem itemAt_insert (t : GTree) (gs : List Glob) (e : Str × Int) (ks : List Key) (n : Str) :
    itemAt ks n (t.insert gs e) =
      (itemAt ks n t).or (if ks ++ [(false, n)] <+: gs.map key then gs[ks.length]? else none) := by
  induction gs generalizing t ks with
  | nil =>
    cases t with
    | node i tm cm cs =>
      rw [GTree.insert, if_neg (by simp)]
      rcases ks with _ | ⟨⟨b, k⟩, ks⟩
      · simp [itemAt]
      · cases b <;> simp [itemAt]
  | cons g gs ih =>
    cases t with
    | node i tm cm cs =>
      rw [GTree.insert]
      by_cases hg : g.items.length = 0
      · rw [if_pos hg]
        rcases ks with _ | ⟨⟨b, k⟩, ks⟩
        · rw [if_neg (by simp [key, hg])]
          simp [itemAt]
        · cases b with
          | false =>
            rw [if_neg (by simp [key, hg])]
            simp [itemAt]
          | true =>
            simp only [itemAt, get_insertMap]
            by_cases hk : g.node = k
            · subst hk
              rw [if_pos rfl, Option.bind_some, ih]
              have e2 : ((true, g.node) :: ks ++ [(false, n)] <+: List.map key (g :: gs)) ↔
                  ks ++ [(false, n)] <+: gs.map key := by
                simp [key, hg]
              simp only [e2, List.length_cons, List.getElem?_cons_succ]
              congr 1
              cases GoMap.get cm g.node with
              | none => simp [leaf_itemAt]
              | some c => rfl
            · rw [if_neg hk, if_neg (by simp [key, Ne.symm hk])]
              simp
      · rw [if_neg hg]
        rcases ks with _ | ⟨⟨b, k⟩, ks⟩
        · simp only [itemAt, find_insertChilds]
          by_cases hk : n = g.node
          · rw [if_pos hk, Option.bind_some, insert_item, if_pos (by simp [key, hg, hk])]
            cases hf : cs.find? fun c => decide (c.nodeOf = some n) with
            | none => simp [GTree.leaf, GTree.item]
            | some c =>
              have := List.find?_some hf
              simp only [decide_eq_true_eq, nodeOf, Option.map_eq_some_iff] at this
              obtain ⟨a, ha, _⟩ := this
              simp [ha]
          · rw [if_neg hk, if_neg (by simp [key, hk])]
            simp
        · cases b with
          | true =>
            rw [if_neg (by simp [key, hg])]
            simp [itemAt]
          | false =>
            simp only [itemAt, find_insertChilds]
            by_cases hk : k = g.node
            · subst hk
              rw [if_pos rfl, Option.bind_some, ih]
              have e2 : ((false, g.node) :: ks ++ [(false, n)] <+: List.map key (g :: gs)) ↔
                  ks ++ [(false, n)] <+: gs.map key := by
                simp [key, hg]
              simp only [e2, List.length_cons, List.getElem?_cons_succ]
              congr 1
              cases cs.find? fun c => decide (c.nodeOf = some g.node) with
              | none => simp [leaf_itemAt]
              | some c => rfl
            · rw [if_neg hk, if_neg (by simp [key, hk])]
              simp

theorem tidy_insert (t : GTree) (gs : List Glob) (e : Str × Int) (h : t.Tidy) : (t.insert gs e).Tidy := by
  induction gs generalizing t with
  | nil =>
    cases h with
    | mk hd hm hc => rw [GTree.insert]; exact .mk hd hm hc
  | cons g gs ih =>
    cases h with
    | @mk i tm cm cs hd hm hc =>
      rw [GTree.insert]
      by_cases hg : g.items.length = 0
      · rw [if_pos hg]
        refine .mk hd ?_ hc
        have key : ∀ cm : List (Str × GTree), (∀ x ∈ cm, Tidy x.2) →
            ∀ x ∈ insertMap (fun c => c.insert gs e) g cm, Tidy x.2 := by
          intro cm
          induction cm with
          | nil =>
            intro _ x hx
            rw [insertMap, List.mem_singleton] at hx
            subst hx
            exact ih _ (leaf_tidy _)
          | cons y cm ihc =>
            obtain ⟨k, c⟩ := y
            intro hc x hx
            rw [insertMap] at hx
            split at hx
            · rcases List.mem_cons.1 hx with rfl | hx
              · exact ih _ (hc (k, c) (by simp))
              · exact hc x (by simp [hx])
            · rcases List.mem_cons.1 hx with rfl | hx
              · exact hc (k, c) (by simp)
              · exact ihc (fun x hx => hc x (by simp [hx])) x hx
        exact key cm hm
      · rw [if_neg hg]
        have hnode : ((GTree.leaf (some g)).insert gs e).nodeOf = some g.node := by
          rw [insert_nodeOf]; rfl
        refine .mk ?_ hm ?_
        · rcases insertChilds_cases cs g gs e with ⟨a, c, b, h3, h1, h2, h4⟩ | ⟨h1, h2⟩
          · rw [h4]
            rw [h3] at hd
            have : ∀ l : List GTree, l.Pairwise (fun c d => c.nodeOf ≠ d.nodeOf) ↔
                (l.map nodeOf).Pairwise (· ≠ ·) := fun l => by rw [List.pairwise_map]
            rw [this] at hd ⊢
            simpa [insert_nodeOf] using hd
          · rw [h2, List.pairwise_append]
            refine ⟨hd, List.pairwise_singleton _ _, ?_⟩
            intro x hx y hy
            rw [List.mem_singleton.1 hy, hnode]
            exact h1 x hx
        · rcases insertChilds_cases cs g gs e with ⟨a, c, b, h3, h1, h2, h4⟩ | ⟨h1, h2⟩
          · rw [h4]
            intro x hx
            have hx' : x ∈ a ∨ x = c.insert gs e ∨ x ∈ b := by simpa using hx
            rcases hx' with hx | rfl | hx
            · exact hc x (by rw [h3]; simp [hx])
            · exact ih _ (hc c (by rw [h3]; simp))
            · exact hc x (by rw [h3]; simp [hx])
          · rw [h2]
            intro x hx
            rcases List.mem_append.1 hx with hx | hx
            · exact hc x hx
            · rw [List.mem_singleton.1 hx]
              exact ih _ (leaf_tidy _)

/-- A new entry is reported exactly for the parts its glob accepts, and nothing else changes. -/
theorem evK_insert (N : List Key → Str → Str → Bool) (pre : List Key) (t : GTree) (gs : List Glob)
    (e : Str × Int) (ps : List Str) (hfresh : find (gs.map key) t = none) :
    (evK N pre ps (t.insert gs e)).Perm ((if accK N pre gs ps then [e] else []) ++ evK N pre ps t) := by
  induction gs generalizing t ps pre with
  | nil =>
    cases t with
    | node i tm cm cs =>
      rw [GTree.insert]
      cases ps with
      | nil =>
        have : tm = none := hfresh
        simp [evK, storeTerm, GTree.term, accK, this]
      | cons p ps => simp [evK, accK]
  | cons g gs ih =>
    cases t with
    | node i tm cm cs =>
      rw [GTree.insert]
      cases ps with
      | nil =>
        simp only [accK, Bool.false_eq_true, if_false, List.nil_append]
        split <;> exact List.Perm.refl _
      | cons p ps =>
        by_cases hg : g.items.length = 0
        · rw [if_pos hg]
          simp only [evK, get_insertMap, accK, if_pos hg]
          by_cases hn : g.node = p
          · subst hn
            have hf : find (gs.map key) ((GoMap.get cm g.node).getD (GTree.leaf (some g))) = none := by
              simp only [List.map_cons, key, hg, decide_true, find] at hfresh
              cases hm : GoMap.get cm g.node with
              | none => exact leaf_find _ _
              | some c => rw [hm] at hfresh; exact hfresh
            have := ih (pre ++ [key g]) _ ps hf
            rw [if_pos rfl]
            simp only [decide_true, Bool.true_and]
            rw [← List.append_assoc]
            apply List.Perm.append_right
            have hkey : key g = (true, g.node) := by simp [key, hg]
            rw [hkey] at this ⊢
            refine this.trans ?_
            cases hm : GoMap.get cm g.node with
            | none => simp [leaf_evK]
            | some c => simp
          · rw [if_neg hn]
            simp [hn]
        · rw [if_neg hg]
          simp only [evK, accK, if_neg hg]
          have hkey : key g = (false, g.node) := by simp [key, hg]
          rw [hkey]
          let F : GTree → Events := fun c => match c.nodeOf with
            | some n => if N pre n p then evK N (pre ++ [(false, n)]) ps c else []
            | none => []
          have hF : ∀ c, c.nodeOf = some g.node →
              F c = if N pre g.node p then evK N (pre ++ [(false, g.node)]) ps c else [] := by
            intro c hc; simp only [F]; rw [hc]
          have hcs : (List.flatMap F (insertChilds (fun c => c.insert gs e) g cs)).Perm
              ((if (N pre g.node p && accK N (pre ++ [(false, g.node)]) gs ps) = true then [e] else []) ++
              List.flatMap F cs) := by
            simp only [List.map_cons, key, hg, decide_false, find] at hfresh
            rcases insertChilds_cases cs g gs e with ⟨a, c, b, h0, h1, h2, h3⟩ | ⟨h1, h2⟩
            · rw [h3, h0]
              apply flatMap_replace
              have h2' : (c.insert gs e).nodeOf = some g.node := by rw [insert_nodeOf]; exact h2
              rw [hF _ h2', hF _ h2]
              have hf : find (gs.map key) c = none := by
                rw [h0, find?_skip _ (by intro x hx; simpa using h1 x hx), List.find?_cons, h2] at hfresh
                simpa using hfresh
              cases hN : N pre g.node p with
              | false => simp
              | true => simpa using ih _ c ps hf
            · rw [h2, List.flatMap_append]
              refine List.perm_append_comm.trans ?_
              apply List.Perm.append_right
              have h3 : ((GTree.leaf (some g)).insert gs e).nodeOf = some g.node := by
                rw [insert_nodeOf]; rfl
              simp only [List.flatMap_cons, List.flatMap_nil, List.append_nil]
              rw [hF _ h3]
              cases hN : N pre g.node p with
              | false => simp
              | true =>
                have := ih (pre ++ [(false, g.node)]) (GTree.leaf (some g)) ps (leaf_find _ _)
                rw [leaf_evK] at this
                simpa using this
          refine (List.Perm.append_left _ hcs).trans ?_
          rw [← List.append_assoc, ← List.append_assoc]
          exact List.Perm.append_right _ List.perm_append_comm

/-! ## Matching -/

theorem itemAt_child {i tm cm cs} (h : (GTree.node i tm cm cs).Tidy) {c : GTree} (hc : c ∈ cs) {n : Str}
    (hn : c.nodeOf = some n) :
    itemAt [] n (.node i tm cm cs) = c.item ∧
      ∀ ks m, itemAt ((false, n) :: ks) m (.node i tm cm cs) = itemAt ks m c := by
  cases h with
  | mk hd _ _ =>
    have hf : cs.find? (fun c => c.nodeOf = some n) = some c := by
      obtain ⟨a, b, rfl⟩ := List.append_of_mem hc
      rw [find?_skip, List.find?_cons, hn]
      · simp
      · intro x hx
        rw [List.pairwise_append] at hd
        have := hd.2.2 x hx c (by simp)
        rw [hn] at this
        simpa using this
    constructor
    · simp only [itemAt]; rw [hf]; rfl
    · intro ks m
      simp only [itemAt]; rw [hf]; rfl

/-- If matching by parts returns, it reports what the globs in the tree say. -/
theorem matchByParts_evK {Good : Glob → Prop} {ρ : List Key → Str → Option Glob} (ps : List Str)
    (hne : ps ≠ []) (pre : List Key) (t : GTree) (hwf : WF Good ps.length t) (ht : t.Tidy)
    (hρ : ∀ ks n, itemAt ks n t = ρ (pre ++ ks) n) (r : Events × Nat)
    (hr : t.matchByParts ps = .ok r) :
    r.1 = evK (fun pre n p => (ρ pre n).any fun g => g.matches p = .ok true) pre ps t ∧
      r.2 = r.1.length := by
  generalize hNd : (fun (pre : List Key) (n p : Str) => (ρ pre n).any fun g => decide (g.matches p = .ok true)) = N
  have hN : ∀ pre n p, N pre n p = (ρ pre n).any fun g => g.matches p = .ok true := by
    intro pre n p; rw [← hNd]
  induction ps generalizing t pre r with
  | nil => exact absurd rfl hne
  | cons p ps ih =>
    cases ht with
    | @mk i tm cm cs hd hm hc =>
      have ht : (GTree.node i tm cm cs).Tidy := .mk hd hm hc
      simp only [List.length_cons, WF] at hwf
      rw [GTree.matchByParts, mapParts_eq] at hr
      obtain ⟨a, ha, hr⟩ := R.bind_eq_ok.1 hr
      obtain ⟨b, hb, hr⟩ := R.bind_eq_ok.1 hr
      have sub : ∀ (c : GTree) (k : Key), WF Good ps.length c → c.Tidy →
          (∀ ks n, itemAt ks n c = ρ (pre ++ k :: ks) n) → ∀ x,
          (if ps = [] then .ok (storeTerm c) else c.matchByParts ps) = R.ok x →
            x.1 = evK N (pre ++ [k]) ps c ∧ x.2 = x.1.length := by
        intro c k hc1 hc2 hc3 x hx
        by_cases hps : ps = []
        · subst hps
          rw [if_pos rfl, storeTerm_len] at hx
          cases hx
          exact ⟨by simp [evK], rfl⟩
        · rw [if_neg hps] at hx
          exact ih hps (pre ++ [k]) c hc1 hc2 (fun ks n => by rw [hc3]; simp) x hx
      have hmap : a.1 = (match GoMap.get cm p with
          | some c => evK N (pre ++ [(true, p)]) ps c
          | none => [] : Events) ∧ a.2 = a.1.length := by
        cases hg : GoMap.get cm p with
        | none => rw [hg] at ha; cases ha; exact ⟨rfl, rfl⟩
        | some c =>
          rw [hg] at ha
          refine sub c (true, p) (hwf.2.1 _ (get_mem hg)) (hm _ (get_mem hg)) (fun ks n => ?_) a ha
          rw [← hρ]
          simp only [itemAt]
          rw [hg]
          rfl
      have hch : ∀ l : List GTree, (∀ c ∈ l, c ∈ cs) → ∀ b, childParts l p ps = .ok b → b.1 =
            (l.flatMap fun c => match c.nodeOf with
              | some n => if N pre n p then evK N (pre ++ [(false, n)]) ps c else []
              | none => []) ∧ b.2 = b.1.length := by
        intro l
        induction l with
        | nil => intro _ b hb; rw [childParts] at hb; cases hb; exact ⟨rfl, rfl⟩
        | cons c l ihc =>
          intro hl b hb
          obtain ⟨⟨g, hg1, hg2⟩, hg3⟩ := hwf.2.2 c (hl c (by simp))
          have hnode : c.nodeOf = some g.node := by simp [nodeOf, hg1]
          obtain ⟨i1, i2⟩ := itemAt_child ht (hl c (by simp)) hnode
          rw [childParts] at hb
          obtain ⟨m, hm', hb⟩ := R.bind_eq_ok.1 hb
          have hNm : N pre g.node p = m := by
            unfold GTree.itemMatches at hm'
            rw [hg1] at hm'
            dsimp only at hm'
            rw [hN]
            have : ρ pre g.node = some g := by
              have := hρ [] g.node
              rw [List.append_nil] at this
              rw [← this, i1, hg1]
            rw [this, Option.any_some, hm']
            cases m <;> simp
          rw [List.flatMap_cons, hnode]
          dsimp only
          rw [hNm]
          cases m with
          | false =>
            simp only [Bool.false_eq_true, if_false] at hb ⊢
            obtain ⟨x, hx, hb⟩ := R.bind_eq_ok.1 hb
            obtain ⟨y, hy, hb⟩ := R.bind_eq_ok.1 hb
            obtain ⟨y1, y2⟩ := ihc (fun c h => hl c (by simp [h])) y hy
            cases hb
            cases hx
            simp only [addEv, List.nil_append, Nat.zero_add]
            exact ⟨y1, y2⟩
          | true =>
            simp only [if_true] at hb ⊢
            obtain ⟨x, hx, hb⟩ := R.bind_eq_ok.1 hb
            obtain ⟨y, hy, hb⟩ := R.bind_eq_ok.1 hb
            obtain ⟨y1, y2⟩ := ihc (fun c h => hl c (by simp [h])) y hy
            cases hb
            obtain ⟨x1, x2⟩ := sub c (false, g.node) hg3 (hc c (hl c (by simp)))
              (fun ks n => by rw [← i2, hρ]) x hx
            simp only [addEv, List.length_append]
            exact ⟨by rw [x1, y1], by rw [x2, y2]⟩
      obtain ⟨b1, b2⟩ := hch cs (fun c h => h) b hb
      obtain ⟨a1, a2⟩ := hmap
      cases hr
      simp only [addEv, evK, List.length_append]
      exact ⟨by rw [a1, b1], by rw [a2, b2]⟩

/-- A path with an empty part reports nothing, if matching returns. -/
theorem matchItems_empty_ok {Good : Glob → Prop} (n : Nat) (path : Str) (t : GTree)
    (hwf : WF Good n t) (hn : (splitByte path 46).length = n) (he : [] ∈ splitByte path 46)
    (r : Events × Nat) (hr : t.matchItems path = .ok r) : r = ([], 0) := by
  induction n generalizing path t r with
  | zero => exact absurd (List.length_eq_zero_iff.1 hn) (splitByte_ne_nil _ _)
  | succ n ih =>
    cases t with
    | node i tm cm cs =>
      obtain ⟨h1, h2⟩ := splitByte_cut path
      rw [GTree.matchItems] at hr
      by_cases hp : (cutDot path).1 = []
      · rw [if_pos hp] at hr; cases hr; rfl
      rw [if_neg hp, mapItems_eq] at hr
      have hf : (cutDot path).2.2 = true := by
        rcases Bool.eq_false_or_eq_true (cutDot path).2.2 with h | h
        · exact h
        · rw [h1, h] at he
          simp at he
          exact absurd he hp
      rw [if_pos hf] at h1
      rw [h1] at hn he
      simp only [WF] at hwf
      have hn' : (splitByte (cutDot path).2.1 46).length = n := by simpa using hn
      have sub : ∀ c, WF Good n c → ∀ x,
          (if (cutDot path).2.1 = [] then .ok (storeTerm c) else c.matchItems (cutDot path).2.1) = R.ok x →
          x = (([], 0) : Events × Nat) := by
        intro c hc x hx
        by_cases hr : (cutDot path).2.1 = []
        · rw [if_pos hr] at hx
          rw [hr] at hn'
          have : n = 1 := by simpa [splitByte] using hn'.symm
          subst this
          rw [wf_term hc] at hx
          cases hx; rfl
        · rw [if_neg hr] at hx
          refine ih _ c hc hn' ?_ x hx
          rcases List.mem_cons.1 he with h | h
          · exact absurd h.symm hp
          · exact h
      have hch : ∀ cs : List GTree, (∀ c ∈ cs, WF Good n c) → ∀ b,
          childItems cs (cutDot path).1 (cutDot path).2.1 = .ok b → b = ([], 0) := by
        intro cs
        induction cs with
        | nil => intro _ b hb; rw [childItems] at hb; cases hb; rfl
        | cons c cs ihc =>
          intro hc b hb
          rw [childItems] at hb
          obtain ⟨m, _, hb⟩ := R.bind_eq_ok.1 hb
          cases m with
          | false =>
            simp only [Bool.false_eq_true, if_false] at hb
            obtain ⟨x, hx, hb⟩ := R.bind_eq_ok.1 hb
            obtain ⟨y, hy, hb⟩ := R.bind_eq_ok.1 hb
            cases hx
            cases hb
            rw [ihc (fun c h => hc c (by simp [h])) y hy]
            rfl
          | true =>
            simp only [if_true] at hb
            obtain ⟨x, hx, hb⟩ := R.bind_eq_ok.1 hb
            obtain ⟨y, hy, hb⟩ := R.bind_eq_ok.1 hb
            cases hb
            rw [ihc (fun c h => hc c (by simp [h])) y hy, sub c (hc c (by simp)) x hx]
            rfl
      obtain ⟨a, ha, hr⟩ := R.bind_eq_ok.1 hr
      obtain ⟨b, hb, hr⟩ := R.bind_eq_ok.1 hr
      cases hr
      rw [hch cs (fun c h => (hwf.2.2 c h).2) b hb]
      have : a = ([], 0) := by
        cases hm : GoMap.get cm (cutDot path).1 with
        | none => rw [hm] at ha; cases ha; rfl
        | some c => rw [hm] at ha; exact sub c (hwf.2.1 _ (get_mem hm)) a ha
      rw [this]
      rfl

/-- Matching by parts returns if the globs in the tree answer. -/
theorem matchByParts_returns {Good : Glob → Prop} (ps : List Str) (hne : ps ≠ []) (t : GTree)
    (hwf : WF Good ps.length t) (hok : ∀ g, Good g → ∀ p ∈ ps, ∃ b, g.matches p = .ok b) :
    ∃ r, t.matchByParts ps = .ok r := by
  induction ps generalizing t with
  | nil => exact absurd rfl hne
  | cons p ps ih =>
    cases t with
    | node i tm cm cs =>
      simp only [List.length_cons, WF] at hwf
      have sub : ∀ c : GTree, WF Good ps.length c →
          ∃ x, (if ps = [] then .ok (storeTerm c) else c.matchByParts ps) = R.ok x := by
        intro c hc
        by_cases hps : ps = []
        · rw [if_pos hps]; exact ⟨_, rfl⟩
        · rw [if_neg hps]; exact ih hps c hc fun g hg p hp => hok g hg p (by simp [hp])
      have hch : ∀ cs : List GTree, (∀ c ∈ cs, (∃ g, c.item = some g ∧ Good g) ∧ WF Good ps.length c) →
          ∃ b, childParts cs p ps = .ok b := by
        intro cs
        induction cs with
        | nil => intro _; rw [childParts]; exact ⟨_, rfl⟩
        | cons c cs ihc =>
          intro hc
          obtain ⟨⟨g, hg1, hg2⟩, hg3⟩ := hc c (by simp)
          obtain ⟨m, hm⟩ := hok g hg2 p (by simp)
          obtain ⟨y, hy⟩ := ihc fun c h => hc c (by simp [h])
          obtain ⟨x, hx⟩ := sub c hg3
          rw [childParts]
          unfold GTree.itemMatches
          rw [hg1]
          dsimp only
          rw [hm, R.bind_ok, hy]
          cases m with
          | false => simp only [Bool.false_eq_true, if_false, R.bind_ok]; exact ⟨_, rfl⟩
          | true => simp only [if_true]; rw [hx]; simp only [R.bind_ok]; exact ⟨_, rfl⟩
      obtain ⟨b, hb⟩ := hch cs hwf.2.2
      rw [GTree.matchByParts, mapParts_eq, hb]
      cases hm : GoMap.get cm p with
      | none => simp only [R.bind_ok]; exact ⟨_, rfl⟩
      | some c =>
        obtain ⟨x, hx⟩ := sub c (hwf.2.1 _ (get_mem hm))
        dsimp only
        rw [hx]
        simp only [R.bind_ok]
        exact ⟨_, rfl⟩

/-! ## When matching returns -/

/-- The parts left after going down the path `ks`; `none` if some part does not fit. -/
def GTree.walk (N : List Key → Str → Str → Bool) : List Key → List Key → List Str → Option (List Str)
  | _, [], ps => some ps
  | _, _ :: _, [] => none
  | pre, (true, n) :: ks, p :: ps => if n = p then walk N (pre ++ [(true, n)]) ks ps else none
  | pre, (false, n) :: ks, p :: ps => if N pre n p then walk N (pre ++ [(false, n)]) ks ps else none

theorem ok_bind_iff {α β : Type} {x : R α} {f : α → R β} :
    (∃ r, (x >>= f) = .ok r) ↔ ∃ a, x = .ok a ∧ ∃ r, f a = .ok r := by
  constructor
  · rintro ⟨r, hr⟩
    obtain ⟨a, ha, hf⟩ := R.bind_eq_ok.1 hr
    exact ⟨a, ha, r, hf⟩
  · rintro ⟨a, ha, r, hf⟩
    exact ⟨r, by rw [ha, R.bind_ok, hf]⟩

/-- Matching by parts returns exactly if every glob that is asked answers. -/
theorem matchByParts_iff {Good : Glob → Prop} {ρ : List Key → Str → Option Glob}
    {N : List Key → Str → Str → Bool}
    (hN : ∀ pre n p, N pre n p = (ρ pre n).any fun g => g.matches p = .ok true) (ps : List Str)
    (hne : ps ≠ []) (pre : List Key) (t : GTree) (hwf : WF Good ps.length t) (ht : t.Tidy)
    (hρ : ∀ ks n, itemAt ks n t = ρ (pre ++ ks) n) :
    (∃ r, t.matchByParts ps = .ok r) ↔ ∀ ks m p rest g, walk N pre ks ps = some (p :: rest) →
      itemAt ks m t = some g → ∃ b, g.matches p = .ok b := by
  induction ps generalizing t pre with
  | nil => exact absurd rfl hne
  | cons p ps ih =>
    cases ht with
    | @mk i tm cm cs hd hm hc =>
      have ht : (GTree.node i tm cm cs).Tidy := .mk hd hm hc
      simp only [List.length_cons, WF] at hwf
      -- what a child asks
      have sub : ∀ (c : GTree) (k : Key), WF Good ps.length c → c.Tidy →
          (∀ ks n, itemAt ks n c = ρ (pre ++ k :: ks) n) →
          ((∃ x, (if ps = [] then .ok (storeTerm c) else c.matchByParts ps) = R.ok x) ↔
            ∀ ks m p rest g, walk N (pre ++ [k]) ks ps = some (p :: rest) →
              itemAt ks m c = some g → ∃ b, g.matches p = .ok b) := by
        intro c k hc1 hc2 hc3
        by_cases hps : ps = []
        · subst hps
          rw [if_pos rfl]
          refine ⟨fun _ ks m p rest g hw => ?_, fun _ => ⟨_, rfl⟩⟩
          cases ks with
          | nil => cases hw
          | cons k' ks => obtain ⟨b, n⟩ := k'; cases b <;> cases hw
        · rw [if_neg hps]
          exact ih hps (pre ++ [k]) c hc1 hc2 fun ks n => by rw [hc3]; simp
      -- the children one after another
      have hch : ∀ l : List GTree, (∀ c ∈ l, c ∈ cs) →
          ((∃ b, childParts l p ps = .ok b) ↔ ∀ c ∈ l, ∀ n, c.nodeOf = some n →
            (∀ g, c.item = some g → ∃ b, g.matches p = .ok b) ∧
            (N pre n p = true → ∃ x, (if ps = [] then .ok (storeTerm c) else c.matchByParts ps) = R.ok x)) := by
        intro l
        induction l with
        | nil => intro _; rw [childParts]; simp
        | cons c l ihc =>
          intro hl
          obtain ⟨⟨g, hg1, hg2⟩, hg3⟩ := hwf.2.2 c (hl c (by simp))
          have hnode : c.nodeOf = some g.node := by simp [nodeOf, hg1]
          obtain ⟨i1, i2⟩ := itemAt_child ht (hl c (by simp)) hnode
          have hrep : ρ pre g.node = some g := by
            have := hρ [] g.node
            rw [List.append_nil] at this
            rw [← this, i1, hg1]
          rw [List.forall_mem_cons, ← ihc fun c h => hl c (by simp [h]), childParts, ok_bind_iff]
          have hask : c.itemMatches p = g.matches p := by
            unfold GTree.itemMatches; rw [hg1]
          rw [hask]
          constructor
          · rintro ⟨m, hm', hr⟩
            have hNm : N pre g.node p = m := by
              rw [hN, hrep, Option.any_some, hm']
              cases m <;> simp
            cases m with
            | false =>
              simp only [Bool.false_eq_true, if_false] at hr
              obtain ⟨_, _, hr⟩ := ok_bind_iff.1 hr
              obtain ⟨y, hy, _⟩ := ok_bind_iff.1 hr
              refine ⟨fun n hn => ⟨fun g' hg' => ?_, fun h => ?_⟩, y, hy⟩
              · rw [hg1] at hg'; cases hg'; exact ⟨_, hm'⟩
              · rw [hnode] at hn; cases hn; rw [hNm] at h; cases h
            | true =>
              simp only [if_true] at hr
              obtain ⟨x, hx, hr⟩ := ok_bind_iff.1 hr
              obtain ⟨y, hy, _⟩ := ok_bind_iff.1 hr
              refine ⟨fun n hn => ⟨fun g' hg' => ?_, fun h => ⟨x, hx⟩⟩, y, hy⟩
              rw [hg1] at hg'; cases hg'; exact ⟨_, hm'⟩
          · rintro ⟨h1, y, hy⟩
            obtain ⟨h2, h3⟩ := h1 _ hnode
            obtain ⟨m, hm'⟩ := h2 g hg1
            have hNm : N pre g.node p = m := by
              rw [hN, hrep, Option.any_some, hm']
              cases m <;> simp
            refine ⟨m, hm', ?_⟩
            cases m with
            | false =>
              simp only [Bool.false_eq_true, if_false]
              exact ok_bind_iff.2 ⟨_, rfl, ok_bind_iff.2 ⟨y, hy, _, rfl⟩⟩
            | true =>
              simp only [if_true]
              obtain ⟨x, hx⟩ := h3 hNm
              exact ok_bind_iff.2 ⟨x, hx, ok_bind_iff.2 ⟨y, hy, _, rfl⟩⟩
      rw [GTree.matchByParts, mapParts_eq, ok_bind_iff]
      constructor
      · rintro ⟨a, ha, hr⟩
        obtain ⟨b, hb, _⟩ := ok_bind_iff.1 hr
        have hb' := (hch cs fun c h => h).1 ⟨b, hb⟩
        intro ks m q rest g hw hg
        rcases ks with _ | ⟨⟨k, n⟩, ks⟩
        · cases hw
          simp only [itemAt] at hg
          cases hf : cs.find? fun c => c.nodeOf = some m with
          | none => rw [hf] at hg; cases hg
          | some c =>
            rw [hf] at hg
            have hn := List.find?_some hf
            simp only [decide_eq_true_eq] at hn
            exact (hb' c (List.mem_of_find?_eq_some hf) m hn).1 g hg
        · cases k with
          | true =>
            rw [walk] at hw
            split at hw
            · rename_i e
              subst e
              simp only [itemAt] at hg
              cases hget : GoMap.get cm n with
              | none => rw [hget] at hg; cases hg
              | some c =>
                rw [hget] at hg ha
                refine (sub c (true, n) (hwf.2.1 _ (get_mem hget)) (hm _ (get_mem hget)) (fun ks m => ?_)).1
                  ⟨a, ha⟩ ks m q rest g hw hg
                rw [← hρ]
                simp only [itemAt]
                rw [hget]
                rfl
            · cases hw
          | false =>
            rw [walk] at hw
            split at hw
            · rename_i hNn
              simp only [itemAt] at hg
              cases hf : cs.find? fun c => c.nodeOf = some n with
              | none => rw [hf] at hg; cases hg
              | some c =>
                rw [hf] at hg
                have hn := List.find?_some hf
                simp only [decide_eq_true_eq] at hn
                have hmem := List.mem_of_find?_eq_some hf
                obtain ⟨_, i2⟩ := itemAt_child ht hmem hn
                exact (sub c (false, n) (hwf.2.2 c hmem).2 (hc c hmem) (fun ks m => by rw [← i2, hρ])).1
                  ((hb' c hmem n hn).2 hNn) ks m q rest g hw hg
            · cases hw
      · intro H
        have h1 : ∃ a, (match GoMap.get cm p with
            | some c => if ps = [] then .ok (storeTerm c) else c.matchByParts ps
            | none => .ok ([], 0)) = R.ok a := by
          cases hget : GoMap.get cm p with
          | none => exact ⟨_, rfl⟩
          | some c =>
            dsimp only
            refine (sub c (true, p) (hwf.2.1 _ (get_mem hget)) (hm _ (get_mem hget)) (fun ks m => ?_)).2 ?_
            · rw [← hρ]
              simp only [itemAt]
              rw [hget]
              rfl
            · intro ks m q rest g hw hg
              refine H ((true, p) :: ks) m q rest g (by rw [walk, if_pos rfl]; exact hw) ?_
              simp only [itemAt]
              rw [hget]
              exact hg
        have h2 : ∃ b, childParts cs p ps = .ok b := by
          refine (hch cs fun c h => h).2 fun c hcm n hn => ?_
          obtain ⟨i1, i2⟩ := itemAt_child ht hcm hn
          refine ⟨fun g hg => H [] n p ps g rfl (by rw [i1]; exact hg), fun hNn => ?_⟩
          refine (sub c (false, n) (hwf.2.2 c hcm).2 (hc c hcm) (fun ks m => by rw [← i2, hρ])).2 ?_
          intro ks m q rest g hw hg
          exact H ((false, n) :: ks) m q rest g (by rw [walk, if_pos hNn]; exact hw) (by rw [i2]; exact hg)
        obtain ⟨a, ha⟩ := h1
        obtain ⟨b, hb⟩ := h2
        exact ⟨a, ha, ok_bind_iff.2 ⟨b, hb, _, rfl⟩⟩

/-- `Match` returns exactly if every glob that is asked answers; it asks for the parts before the first
empty one. -/
theorem matchItems_iff {Good : Glob → Prop} {ρ : List Key → Str → Option Glob}
    {N : List Key → Str → Str → Bool}
    (hN : ∀ pre n p, N pre n p = (ρ pre n).any fun g => g.matches p = .ok true) (n : Nat) (path : Str)
    (hn : (splitByte path 46).length = n) (pre : List Key) (t : GTree) (hwf : WF Good n t) (ht : t.Tidy)
    (hρ : ∀ ks n, itemAt ks n t = ρ (pre ++ ks) n) :
    (∃ r, t.matchItems path = .ok r) ↔ ∀ ks m p rest g,
      walk N pre ks (splitByte path 46) = some (p :: rest) →
      (∀ q ∈ (splitByte path 46).take (ks.length + 1), q ≠ []) →
      itemAt ks m t = some g → ∃ b, g.matches p = .ok b := by
  induction n generalizing t pre path with
  | zero => exact absurd (List.length_eq_zero_iff.1 hn) (splitByte_ne_nil _ _)
  | succ n ih =>
    cases ht with
    | @mk i tm cm cs hd hm hc =>
      have ht : (GTree.node i tm cm cs).Tidy := .mk hd hm hc
      simp only [WF] at hwf
      obtain ⟨h1, h2⟩ := splitByte_cut path
      by_cases hp0 : (cutDot path).1 = []
      · rw [GTree.matchItems, if_pos hp0]
        refine ⟨fun _ ks m p rest g hw hq => ?_, fun _ => ⟨_, rfl⟩⟩
        refine absurd hp0 (hq _ ?_)
        rw [h1]; simp
      obtain ⟨ps, hps, hps1, hps2⟩ : ∃ ps, splitByte path 46 = (cutDot path).1 :: ps ∧
          ((cutDot path).2.1 = [] → ps = [] ∨ ps = [[]]) ∧
          ((cutDot path).2.1 ≠ [] → ps = splitByte (cutDot path).2.1 46) := by
        cases hf : (cutDot path).2.2 with
        | true =>
          rw [hf, if_pos rfl] at h1
          exact ⟨_, h1, fun h => .inr (by rw [h]; rfl), fun _ => rfl⟩
        | false =>
          rw [hf, if_neg (by simp)] at h1
          exact ⟨[], h1, fun _ => .inl rfl, fun h => absurd (h2 hf) h⟩
      rw [hps] at hn ⊢
      generalize hA : (cutDot path).1 = p at *
      generalize hB : (cutDot path).2.1 = rt at *
      have hn' : ps.length = n := by simpa using hn
      -- what a child asks
      have sub : ∀ (c : GTree) (k : Key), WF Good n c → c.Tidy →
          (∀ ks n, itemAt ks n c = ρ (pre ++ k :: ks) n) →
          ((∃ x, (if rt = [] then .ok (storeTerm c) else c.matchItems rt) =
              R.ok x) ↔
            ∀ ks m p rest g, walk N (pre ++ [k]) ks ps = some (p :: rest) →
              (∀ q ∈ ps.take (ks.length + 1), q ≠ []) →
              itemAt ks m c = some g → ∃ b, g.matches p = .ok b) := by
        intro c k hc1 hc2 hc3
        by_cases hr : rt = []
        · rw [if_pos hr]
          refine ⟨fun _ ks m p rest g hw hq => ?_, fun _ => ⟨_, rfl⟩⟩
          rcases hps1 hr with rfl | rfl
          · cases ks with
            | nil => cases hw
            | cons k' ks => obtain ⟨b, n⟩ := k'; cases b <;> cases hw
          · exact absurd rfl (hq [] (by simp))
        · rw [if_neg hr]
          have e := hps2 hr
          subst e
          exact ih _ hn' (pre ++ [k]) c hc1 hc2 fun ks n => by rw [hc3]; simp
      have hcons : ∀ {k : Nat}, (∀ q ∈ (p :: ps).take (k + 1), q ≠ []) ↔
          ∀ q ∈ ps.take k, q ≠ [] := by
        intro k
        rw [List.take_succ_cons, List.forall_mem_cons]
        exact and_iff_right hp0
      -- the children one after another
      have hch : ∀ l : List GTree, (∀ c ∈ l, c ∈ cs) →
          ((∃ b, childItems l p rt = .ok b) ↔ ∀ c ∈ l, ∀ n, c.nodeOf = some n →
            (∀ g, c.item = some g → ∃ b, g.matches p = .ok b) ∧
            (N pre n p = true → ∃ x, (if rt = [] then .ok (storeTerm c) else c.matchItems rt) = R.ok x)) := by
        intro l
        induction l with
        | nil => intro _; rw [childItems]; simp
        | cons c l ihc =>
          intro hl
          obtain ⟨⟨g, hg1, hg2⟩, hg3⟩ := hwf.2.2 c (hl c (by simp))
          have hnode : c.nodeOf = some g.node := by simp [nodeOf, hg1]
          obtain ⟨i1, i2⟩ := itemAt_child ht (hl c (by simp)) hnode
          have hrep : ρ pre g.node = some g := by
            have := hρ [] g.node
            rw [List.append_nil] at this
            rw [← this, i1, hg1]
          rw [List.forall_mem_cons, ← ihc fun c h => hl c (by simp [h]), childItems, ok_bind_iff]
          have hask : c.itemMatches p = g.matches p := by
            unfold GTree.itemMatches; rw [hg1]
          rw [hask]
          constructor
          · rintro ⟨m, hm', hr⟩
            have hNm : N pre g.node p = m := by
              rw [hN, hrep, Option.any_some, hm']
              cases m <;> simp
            cases m with
            | false =>
              simp only [Bool.false_eq_true, if_false] at hr
              obtain ⟨_, _, hr⟩ := ok_bind_iff.1 hr
              obtain ⟨y, hy, _⟩ := ok_bind_iff.1 hr
              refine ⟨fun n hn => ⟨fun g' hg' => ?_, fun h => ?_⟩, y, hy⟩
              · rw [hg1] at hg'; cases hg'; exact ⟨_, hm'⟩
              · rw [hnode] at hn; cases hn; rw [hNm] at h; cases h
            | true =>
              simp only [if_true] at hr
              obtain ⟨x, hx, hr⟩ := ok_bind_iff.1 hr
              obtain ⟨y, hy, _⟩ := ok_bind_iff.1 hr
              refine ⟨fun n hn => ⟨fun g' hg' => ?_, fun h => ⟨x, hx⟩⟩, y, hy⟩
              rw [hg1] at hg'; cases hg'; exact ⟨_, hm'⟩
          · rintro ⟨h1, y, hy⟩
            obtain ⟨h2, h3⟩ := h1 _ hnode
            obtain ⟨m, hm'⟩ := h2 g hg1
            have hNm : N pre g.node p = m := by
              rw [hN, hrep, Option.any_some, hm']
              cases m <;> simp
            refine ⟨m, hm', ?_⟩
            cases m with
            | false =>
              simp only [Bool.false_eq_true, if_false]
              exact ok_bind_iff.2 ⟨_, rfl, ok_bind_iff.2 ⟨y, hy, _, rfl⟩⟩
            | true =>
              simp only [if_true]
              obtain ⟨x, hx⟩ := h3 hNm
              exact ok_bind_iff.2 ⟨x, hx, ok_bind_iff.2 ⟨y, hy, _, rfl⟩⟩
      rw [GTree.matchItems, hA, hB, if_neg hp0, mapItems_eq, ok_bind_iff]
      constructor
      · rintro ⟨a, ha, hr⟩
        obtain ⟨b, hb, _⟩ := ok_bind_iff.1 hr
        have hb' := (hch cs fun c h => h).1 ⟨b, hb⟩
        intro ks m q rest g hw hq hg
        rcases ks with _ | ⟨⟨k, n⟩, ks⟩
        · cases hw
          simp only [itemAt] at hg
          cases hf : cs.find? fun c => c.nodeOf = some m with
          | none => rw [hf] at hg; cases hg
          | some c =>
            rw [hf] at hg
            have hn := List.find?_some hf
            simp only [decide_eq_true_eq] at hn
            exact (hb' c (List.mem_of_find?_eq_some hf) m hn).1 g hg
        · cases k with
          | true =>
            rw [walk] at hw
            split at hw
            · rename_i e
              subst e
              simp only [itemAt] at hg
              cases hget : GoMap.get cm n with
              | none => rw [hget] at hg; cases hg
              | some c =>
                rw [hget] at hg ha
                refine (sub c (true, n) (hwf.2.1 _ (get_mem hget)) (hm _ (get_mem hget)) (fun ks m => ?_)).1
                  ⟨a, ha⟩ ks m q rest g hw (hcons.1 hq) hg
                rw [← hρ]
                simp only [itemAt]
                rw [hget]
                rfl
            · cases hw
          | false =>
            rw [walk] at hw
            split at hw
            · rename_i hNn
              simp only [itemAt] at hg
              cases hf : cs.find? fun c => c.nodeOf = some n with
              | none => rw [hf] at hg; cases hg
              | some c =>
                rw [hf] at hg
                have hn := List.find?_some hf
                simp only [decide_eq_true_eq] at hn
                have hmem := List.mem_of_find?_eq_some hf
                obtain ⟨_, i2⟩ := itemAt_child ht hmem hn
                exact (sub c (false, n) (hwf.2.2 c hmem).2 (hc c hmem) (fun ks m => by rw [← i2, hρ])).1
                  ((hb' c hmem n hn).2 hNn) ks m q rest g hw (hcons.1 hq) hg
            · cases hw
      · intro H
        have h1 : ∃ a, (match GoMap.get cm p with
            | some c => if rt = [] then .ok (storeTerm c) else c.matchItems rt
            | none => .ok ([], 0)) = R.ok a := by
          cases hget : GoMap.get cm p with
          | none => exact ⟨_, rfl⟩
          | some c =>
            dsimp only
            refine (sub c (true, p) (hwf.2.1 _ (get_mem hget)) (hm _ (get_mem hget)) (fun ks m => ?_)).2 ?_
            · rw [← hρ]
              simp only [itemAt]
              rw [hget]
              rfl
            · intro ks m q rest g hw hq hg
              refine H ((true, p) :: ks) m q rest g (by rw [walk, if_pos rfl]; exact hw) (hcons.2 hq) ?_
              simp only [itemAt]
              rw [hget]
              exact hg
        have h2 : ∃ b, childItems cs p rt = .ok b := by
          refine (hch cs fun c h => h).2 fun c hcm n hn => ?_
          obtain ⟨i1, i2⟩ := itemAt_child ht hcm hn
          refine ⟨fun g hg => H [] n p ps g rfl (hcons.2 (by simp)) (by rw [i1]; exact hg), fun hNn => ?_⟩
          refine (sub c (false, n) (hwf.2.2 c hcm).2 (hc c hcm) (fun ks m => by rw [← i2, hρ])).2 ?_
          intro ks m q rest g hw hq hg
          exact H ((false, n) :: ks) m q rest g (by rw [walk, if_pos hNn]; exact hw) (hcons.2 hq) (by rw [i2]; exact hg)
        obtain ⟨a, ha⟩ := h1
        obtain ⟨b, hb⟩ := h2
        exact ⟨a, ha, ok_bind_iff.2 ⟨b, hb, _, rfl⟩⟩

theorem walk_iff {N : List Key → Str → Str → Bool} (pre ks : List Key) (ps rest : List Str) :
    walk N pre ks ps = some rest ↔ ks.length ≤ ps.length ∧ ps.drop ks.length = rest ∧
      ∀ j b n p, ks[j]? = some (b, n) → ps[j]? = some p →
        if b = true then n = p else N (pre ++ ks.take j) n p = true := by
  induction ks generalizing ps pre with
  | nil => simp [walk]
  | cons k ks ih =>
    obtain ⟨b, n⟩ := k
    cases ps with
    | nil => cases b <;> simp [walk]
    | cons p ps =>
      have hw : walk N pre ((b, n) :: ks) (p :: ps) =
          if (if b = true then n = p else N pre n p = true) then walk N (pre ++ [(b, n)]) ks ps else none := by
        cases b <;> rw [walk] <;> simp
      rw [hw]
      by_cases hc : if b = true then n = p else N pre n p = true
      · rw [if_pos hc, ih]
        simp only [List.length_cons, Nat.add_le_add_iff_right, List.drop_succ_cons]
        refine and_congr_right fun _ => and_congr_right fun _ => ?_
        constructor
        · intro h j b' n' q hk hq
          cases j with
          | zero =>
            simp only [List.getElem?_cons_zero, Option.some.injEq] at hk hq
            cases hk; cases hq
            simpa using hc
          | succ j =>
            simp only [List.getElem?_cons_succ] at hk hq
            simpa using h j b' n' q hk hq
        · intro h j b' n' q hk hq
          simpa using h (j + 1) b' n' q (by simpa using hk) (by simpa using hq)
      · rw [if_neg hc]
        refine ⟨fun h => (by cases h), fun h => absurd ?_ hc⟩
        simpa using h.2.2 0 b n p rfl rfl

/-! ## Histories -/

/-- The glob of the first entry of `L` with `n` parts that goes through the wild child `m` below `ks`. -/
def repOf (L : List (GGlob × Int)) (n : Nat) (ks : List Key) (m : Str) : Option Glob :=
  (L.find? fun x => x.1.parts.length = n ∧ ks ++ [(false, m)] <+: x.1.parts.map key).bind
    fun x => x.1.parts[ks.length]?

theorem repOf_append (L : List (GGlob × Int)) (g : GGlob) (i : Int) (n : Nat) (ks : List Key) (m : Str) :
    repOf (L ++ [(g, i)]) n ks m = (repOf L n ks m).or
      (if g.parts.length = n ∧ ks ++ [(false, m)] <+: g.parts.map key then g.parts[ks.length]? else none) := by
  unfold repOf
  rw [List.find?_append]
  cases hf : L.find? fun x => x.1.parts.length = n ∧ ks ++ [(false, m)] <+: x.1.parts.map key with
  | some x =>
    have h1 := List.find?_some hf
    simp only [decide_eq_true_eq] at h1
    have hl : ks.length < x.1.parts.length := by
      have := h1.2.length_le
      simp at this
      omega
    simp [List.getElem?_eq_getElem hl]
  | none =>
    simp only [Option.none_or, List.find?_cons, List.find?_nil]
    by_cases hc : g.parts.length = n ∧ ks ++ [(false, m)] <+: g.parts.map key
    · simp [hc]
    · simp [hc]

theorem accK_iff {N : List Key → Str → Str → Bool} (pre : List Key) (gs : List Glob) (ps : List Str) :
    accK N pre gs ps = true ↔ gs.length = ps.length ∧ ∀ k g p, gs[k]? = some g → ps[k]? = some p →
      if g.items.length = 0 then g.node = p else N (pre ++ (gs.take k).map key) g.node p = true := by
  induction gs generalizing ps pre with
  | nil => cases ps <;> simp [accK]
  | cons g gs ih =>
    cases ps with
    | nil => simp [accK]
    | cons p ps =>
      rw [accK, Bool.and_eq_true, ih]
      constructor
      · rintro ⟨h1, h2, h3⟩
        refine ⟨by simp [h2], fun k a q ha hq => ?_⟩
        cases k with
        | zero =>
          simp only [List.getElem?_cons_zero, Option.some.injEq] at ha hq
          subst ha hq
          by_cases h0 : g.items.length = 0
          · rw [if_pos h0] at h1 ⊢; simpa using h1
          · rw [if_neg h0] at h1 ⊢; simpa using h1
        | succ k =>
          simp only [List.getElem?_cons_succ] at ha hq
          have := h3 k a q ha hq
          simpa using this
      · rintro ⟨h1, h2⟩
        refine ⟨?_, by simpa using h1, fun k a q ha hq => ?_⟩
        · have := h2 0 g p rfl rfl
          by_cases h0 : g.items.length = 0
          · rw [if_pos h0] at this ⊢; simpa using this
          · rw [if_neg h0] at this ⊢; simpa using this
        · have := h2 (k + 1) a q ha hq
          simpa using this

/-- Relation between a tree and the accepted globs, with the globs kept in the tree. -/
structure ExactInv (t : GGlobTree) (L : List (GGlob × Int)) : Prop extends TreeInv t L where
  tidy : ∀ n, (t.at n).Tidy
  items : ∀ n ks m, itemAt ks m (t.at n) = repOf L n ks m
  evs : ∀ N n ps, ps.length = n → (evK N [] ps (t.at n)).Perm
    ((L.filter fun x => accK N [] x.1.parts ps).map entry)

theorem exactInv_empty : ExactInv {} [] where
  toTreeInv := treeInv_empty
  tidy _ := leaf_tidy _
  items n ks m := by
    rw [show ({} : GGlobTree).at n = GTree.leaf none from rfl, leaf_itemAt]
    rfl
  evs N n ps _ := by
    rw [show ({} : GGlobTree).at n = GTree.leaf none from rfl, leaf_evK]
    simp

theorem exactInv_add {t t' : GGlobTree} {L : List (GGlob × Int)} (h : ExactInv t L) {g : GGlob} {i : Int}
    (hp : ∃ s, parseGGlob s = .ok (.ok g)) (hn : t.globs.get g.node = none)
    (hr : t'.root = addGGlob t.root g i) (hk : (t'.globs.get g.node).isSome = true)
    (hmono : ∀ s, (t.globs.get s).isSome = true → (t'.globs.get s).isSome = true) :
    ExactInv t' (L ++ [(g, i)]) := by
  have hat : ∀ n, t'.at n = if g.parts.length = n then (t.at n).insert g.parts (g.node, i)
      else t.at n := by
    intro n
    unfold GGlobTree.at
    rw [hr, addGGlob, GoMap.get_set]
    by_cases hl : g.parts.length = n
    · subst hl
      rw [if_pos rfl, if_pos rfl]; rfl
    · rw [if_neg hl, if_neg hl]
  have hfresh : ∀ n, GTree.find (g.parts.map key) (t.at n) = none := by
    intro n
    cases hf : GTree.find (g.parts.map key) (t.at n) with
    | none => rfl
    | some e =>
      obtain ⟨x, hx, hkx⟩ := h.find n _ _ hf
      obtain ⟨s, hs⟩ := hp
      obtain ⟨s', hs'⟩ := h.parsed x hx
      have e1 := (parseGGlob_ok hs).2.2.1
      have e2 := (parseGGlob_ok hs').2.2.1
      have : g.parts.map Glob.node = x.1.parts.map Glob.node := by
        have := congrArg (List.map Prod.snd) hkx
        simpa [Function.comp_def, key] using this
      have hknown := h.known x hx
      rw [e2, ← this, ← e1, hn] at hknown
      simp at hknown
  refine ⟨treeInv_add h.toTreeInv hp hn hr hk hmono, ?_, ?_, ?_⟩
  · intro n
    rw [hat]
    split
    · exact tidy_insert _ _ _ (h.tidy n)
    · exact h.tidy n
  · intro n ks m
    rw [hat, repOf_append]
    by_cases hl : g.parts.length = n
    · rw [if_pos hl, itemAt_insert, h.items]
      simp [hl]
    · rw [if_neg hl, h.items, if_neg (fun h => hl h.1), Option.or_none]
  · intro N n ps hps
    rw [hat, List.filter_append, List.map_append]
    by_cases hl : g.parts.length = n
    · rw [if_pos hl]
      refine (evK_insert N _ _ _ _ _ (hfresh n)).trans ?_
      refine List.perm_append_comm.trans (List.Perm.append (h.evs N n ps hps) ?_)
      cases ha : accK N [] g.parts ps <;> simp [ha, entry]
    · rw [if_neg hl]
      have : accK N [] g.parts ps = false := by
        cases ha : accK N [] g.parts ps with
        | false => rfl
        | true => exact absurd (((accK_iff _ _ _).1 ha).1.trans hps) hl
      simpa [this] using h.evs N n ps hps

theorem runOps_exact (ops : List GOp) (hp : ∀ op ∈ ops, op.Parsed) (t : GGlobTree)
    (L : List (GGlob × Int)) (h : ExactInv t L) :
    ∃ t' L', runOps t L ops = .ok (t', L') ∧ ExactInv t' L' := by
  induction ops generalizing t L with
  | nil => exact ⟨t, L, rfl, h⟩
  | cons op ops ih =>
    obtain ⟨t', r, h1, h2⟩ := apply_cases t op (hp op (by simp))
    rw [runOps, h1, R.bind_ok]
    apply ih (fun op h => hp op (by simp [h]))
    rcases h2 with ⟨rfl, e⟩ | ⟨g, i, e, e1, e2, e3, e4, e5⟩
    · dsimp only; rw [e, List.append_nil]; exact h
    · dsimp only; rw [e]; exact exactInv_add h e1 e2 e3 e4 e5

end GoMatcher
