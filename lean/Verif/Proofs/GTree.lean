import Verif.Proofs.GGlob

/-! # The tree of dotted globs

`ev` is what a tree reports when every part glob answers by its text `N node part`; `find`
is the entry at a key path.  Insertion changes both in the expected way. -/

namespace GoMatcher

namespace GTree

/-- The node text of a child. -/
def nodeOf (c : GTree) : Option Str := c.item.map Glob.node

/-- Reported entries for the given parts. -/
def ev (N : Str → Str → Bool) : List Str → GTree → Events
  | [], t => (storeTerm t).1
  | p :: ps, .node _ _ cm cs =>
    (match GoMap.get cm p with
      | some c => ev N ps c
      | none => []) ++
    cs.flatMap fun c => if (c.nodeOf.any fun n => N n p) then ev N ps c else []

/-- Key of a part: literal or not, and its text. -/
def key (g : Glob) : Bool × Str := (g.items.length = 0, g.node)

/-- The entry at a key path. -/
def find : List (Bool × Str) → GTree → Option (Str × Int)
  | [], t => t.term
  | (true, n) :: ks, .node _ _ cm _ => (GoMap.get cm n).bind (find ks)
  | (false, n) :: ks, .node _ _ _ cs => (cs.find? fun c => c.nodeOf = some n).bind (find ks)

/-- All entries lie at depth `d`, and the items of the children satisfy `Good`. -/
def WF (Good : Glob → Prop) : Nat → GTree → Prop
  | 0, .node _ _ cm cs => cm = [] ∧ cs = []
  | d + 1, .node _ tm cm cs => tm = none ∧ (∀ x ∈ cm, WF Good d x.2) ∧
      ∀ c ∈ cs, (∃ g, c.item = some g ∧ Good g) ∧ WF Good d c

/-- The parts of a glob against parts of a path, by texts. -/
def acc (N : Str → Str → Bool) : List Glob → List Str → Bool
  | [], [] => true
  | g :: gs, p :: ps => (if g.items.length = 0 then g.node = p else N g.node p) && acc N gs ps
  | _, _ => false

end GTree

open GTree

/-! ## Insertion -/

theorem get_insertMap (cm : List (Str × GTree)) (g : Glob) (gs : List Glob) (e : Str × Int)
    (p : Str) : GoMap.get (insertMap (fun c => c.insert gs e) g cm) p =
      if g.node = p then some (((GoMap.get cm p).getD (GTree.leaf (some g))).insert gs e)
      else GoMap.get cm p := by
  induction cm with
  | nil =>
    rw [insertMap]
    by_cases h : g.node = p <;> simp [GoMap.get, h]
  | cons x cm ih =>
    obtain ⟨k, c⟩ := x
    rw [insertMap]
    by_cases hk : k = g.node
    · subst hk
      rw [if_pos rfl]
      by_cases h : g.node = p <;> simp [GoMap.get, h]
    · rw [if_neg hk]
      by_cases h : g.node = p
      · subst h
        simp only [GoMap.get, if_neg hk, ih, if_pos]
      · by_cases hkp : k = p <;> simp [GoMap.get, hkp, ih, h]

theorem leaf_ev (N : Str → Str → Bool) (ps : List Str) (i : Option Glob) :
    ev N ps (GTree.leaf i) = [] := by
  cases ps <;> simp [ev, GTree.leaf, storeTerm, GTree.term, GoMap.get]

theorem leaf_find (ks : List (Bool × Str)) (i : Option Glob) : find ks (GTree.leaf i) = none := by
  rcases ks with _ | ⟨⟨b, n⟩, ks⟩
  · rfl
  · cases b <;> simp [find, GTree.leaf, GoMap.get]

theorem leaf_wf (Good : Glob → Prop) (d : Nat) (i : Option Glob) : WF Good d (GTree.leaf i) := by
  cases d <;> simp [WF, GTree.leaf]

theorem insert_item (t : GTree) (gs : List Glob) (e : Str × Int) : (t.insert gs e).item = t.item := by
  cases t with
  | node i tm cm cs =>
    cases gs with
    | nil => rw [GTree.insert]; rfl
    | cons g gs => rw [GTree.insert]; split <;> rfl

theorem insert_nodeOf (t : GTree) (gs : List Glob) (e : Str × Int) :
    (t.insert gs e).nodeOf = t.nodeOf := by unfold nodeOf; rw [insert_item]

/-- The list of children after an insertion. -/
theorem insertChilds_cases (cs : List GTree) (g : Glob) (gs : List Glob) (e : Str × Int) :
    (∃ a c b, cs = a ++ c :: b ∧ (∀ x ∈ a, x.nodeOf ≠ some g.node) ∧ c.nodeOf = some g.node ∧
      insertChilds (fun c => c.insert gs e) g cs = a ++ c.insert gs e :: b) ∨
    ((∀ x ∈ cs, x.nodeOf ≠ some g.node) ∧
      insertChilds (fun c => c.insert gs e) g cs = cs ++ [(GTree.leaf (some g)).insert gs e]) := by
  induction cs with
  | nil => right; rw [insertChilds]; simp
  | cons c cs ih =>
    rw [insertChilds]
    by_cases h : (c.item.map Glob.node) = some g.node
    · rw [if_pos h]
      left
      exact ⟨[], c, cs, rfl, by simp, h, rfl⟩
    · rw [if_neg h]
      rcases ih with ⟨a, c', b, rfl, h1, h2, h3⟩ | ⟨h1, h2⟩
      · left
        refine ⟨c :: a, c', b, rfl, ?_, h2, by rw [h3]; rfl⟩
        intro x hx
        rcases List.mem_cons.1 hx with rfl | hx
        · exact h
        · exact h1 x hx
      · right
        refine ⟨?_, by rw [h2]; rfl⟩
        intro x hx
        rcases List.mem_cons.1 hx with rfl | hx
        · exact h
        · exact h1 x hx

theorem find?_skip {α : Type} {p : α → Bool} {a : List α} (b : List α) (h : ∀ x ∈ a, p x = false) :
    (a ++ b).find? p = b.find? p := by
  induction a with
  | nil => rfl
  | cons x a ih =>
    rw [List.cons_append, List.find?_cons, h x (by simp), ih (fun y hy => h y (by simp [hy]))]

theorem find_insert (t : GTree) (gs : List Glob) (e : Str × Int) (ks : List (Bool × Str)) :
    find ks (t.insert gs e) = if ks = gs.map key then some e else find ks t := by
  induction gs generalizing t ks with
  | nil =>
    cases t with
    | node i tm cm cs =>
      rw [GTree.insert]
      rcases ks with _ | ⟨⟨b, n⟩, ks⟩
      · rfl
      · cases b <;> simp [find]
  | cons g gs ih =>
    cases t with
    | node i tm cm cs =>
      rw [GTree.insert]
      by_cases hg : g.items.length = 0
      · rw [if_pos hg]
        rcases ks with _ | ⟨⟨b, n⟩, ks⟩
        · rfl
        · cases b with
          | false => simp [find, key, hg]
          | true =>
            simp only [find, get_insertMap]
            by_cases hn : g.node = n
            · subst hn
              rw [if_pos rfl]
              simp only [Option.bind_some, ih]
              have : ((true, g.node) :: ks = List.map key (g :: gs)) ↔ ks = gs.map key := by
                simp [key, hg]
              simp only [this]
              split
              · rfl
              · cases GoMap.get cm g.node <;> simp [leaf_find]
            · rw [if_neg hn, if_neg]
              intro h
              simp [key] at h
              exact hn h.1.2.symm
      · rw [if_neg hg]
        rcases ks with _ | ⟨⟨b, n⟩, ks⟩
        · rfl
        · cases b with
          | true => simp [find, key, hg]
          | false =>
            simp only [find]
            have hiff : n = g.node → (((false, n) :: ks = List.map key (g :: gs)) ↔
                ks = gs.map key) := by
              rintro rfl
              simp [key, hg]
            rcases insertChilds_cases cs g gs e with ⟨a, c, b, h0, h1, h2, h3⟩ | ⟨h1, h2⟩
            · rw [h3, h0]
              by_cases hn : n = g.node
              · have ha : ∀ x ∈ a, (decide (x.nodeOf = some n)) = false := by
                  intro x hx; subst hn; simpa using h1 x hx
                rw [find?_skip _ ha, find?_skip _ ha, List.find?_cons, List.find?_cons,
                  insert_nodeOf, h2, hn]
                simp only [decide_true, Option.bind_some, ih]
                have := hiff hn
                rw [hn] at this
                simp only [this]
              · have hne : ¬ ((false, n) :: ks = List.map key (g :: gs)) := by
                  intro h
                  simp [key] at h
                  exact hn h.1.2
                rw [if_neg hne]
                simp only [List.find?_append, List.find?_cons, insert_nodeOf, h2]
                have : decide (some g.node = some n) = false := by
                  simpa using fun h => hn h.symm
                rw [this]
            · rw [h2]
              by_cases hn : n = g.node
              · have ha : ∀ x ∈ cs, (decide (x.nodeOf = some n)) = false := by
                  intro x hx; subst hn; simpa using h1 x hx
                rw [find?_skip _ ha]
                have h0 : cs.find? (fun c => decide (c.nodeOf = some n)) = none := by
                  rw [List.find?_eq_none]
                  intro x hx
                  simp [ha x hx]
                rw [h0]
                have : (List.find? (fun c => decide (c.nodeOf = some n))
                    [(GTree.leaf (some g)).insert gs e]) = some ((GTree.leaf (some g)).insert gs e) := by
                  rw [List.find?_cons, insert_nodeOf]
                  simp [nodeOf, GTree.leaf, GTree.item, hn]
                rw [this]
                simp only [Option.bind_some, ih, leaf_find, hiff hn, Option.bind_none]
              · have hne : ¬ ((false, n) :: ks = List.map key (g :: gs)) := by
                  intro h
                  simp [key] at h
                  exact hn h.1.2
                rw [if_neg hne]
                simp only [List.find?_append, List.find?_cons, insert_nodeOf, List.find?_nil]
                have : decide ((GTree.leaf (some g)).nodeOf = some n) = false := by
                  simpa [nodeOf, GTree.leaf, GTree.item] using fun h => hn h.symm
                rw [this]
                simp

theorem flatMap_replace {α β : Type} (a b : List α) (c c' : α) (f : α → List β) (x : List β)
    (h : (f c').Perm (x ++ f c)) : ((a ++ c' :: b).flatMap f).Perm (x ++ (a ++ c :: b).flatMap f) := by
  simp only [List.flatMap_append, List.flatMap_cons]
  refine (List.Perm.append_left _ (List.Perm.append_right _ h)).trans ?_
  rw [List.append_assoc x, ← List.append_assoc, ← List.append_assoc x]
  exact List.Perm.append_right _ List.perm_append_comm

/-- A new entry is reported exactly for the parts its glob accepts, and nothing else changes. -/
theorem ev_insert (N : Str → Str → Bool) (t : GTree) (gs : List Glob) (e : Str × Int) (ps : List Str)
    (hfresh : find (gs.map key) t = none) :
    (ev N ps (t.insert gs e)).Perm ((if acc N gs ps then [e] else []) ++ ev N ps t) := by
  induction gs generalizing t ps with
  | nil =>
    cases t with
    | node i tm cm cs =>
      rw [GTree.insert]
      cases ps with
      | nil =>
        have : tm = none := hfresh
        simp [ev, storeTerm, GTree.term, acc, this]
      | cons p ps => simp [ev, acc]
  | cons g gs ih =>
    cases t with
    | node i tm cm cs =>
      rw [GTree.insert]
      cases ps with
      | nil =>
        simp only [acc, Bool.false_eq_true, if_false, List.nil_append]
        split <;> exact List.Perm.refl _
      | cons p ps =>
        by_cases hg : g.items.length = 0
        · rw [if_pos hg]
          simp only [ev, get_insertMap, acc, if_pos hg]
          by_cases hn : g.node = p
          · subst hn
            have hf : find (gs.map key) ((GoMap.get cm g.node).getD (GTree.leaf (some g))) = none := by
              simp only [List.map_cons, key, hg, decide_true, find] at hfresh
              cases hm : GoMap.get cm g.node with
              | none => exact leaf_find _ _
              | some c => rw [hm] at hfresh; exact hfresh
            have := ih _ ps hf
            rw [if_pos rfl]
            simp only [decide_true, Bool.true_and]
            rw [← List.append_assoc]
            apply List.Perm.append_right
            refine this.trans ?_
            cases hm : GoMap.get cm g.node with
            | none => simp [leaf_ev]
            | some c => simp
          · rw [if_neg hn]
            simp [hn]
        · rw [if_neg hg]
          simp only [ev, acc, if_neg hg]
          have hcs : (List.flatMap (fun c => if (c.nodeOf.any fun n => N n p) = true
              then ev N ps c else []) (insertChilds (fun c => c.insert gs e) g cs)).Perm
              ((if (N g.node p && acc N gs ps) = true then [e] else []) ++
              List.flatMap (fun c => if (c.nodeOf.any fun n => N n p) = true
                then ev N ps c else []) cs) := by
            simp only [List.map_cons, key, hg, decide_false, find] at hfresh
            rcases insertChilds_cases cs g gs e with ⟨a, c, b, h0, h1, h2, h3⟩ | ⟨h1, h2⟩
            · rw [h3, h0]
              apply flatMap_replace
              rw [insert_nodeOf, h2]
              have hf : find (gs.map key) c = none := by
                rw [h0, find?_skip _ (by intro x hx; simpa using h1 x hx), List.find?_cons, h2] at hfresh
                simpa using hfresh
              cases hN : N g.node p with
              | false => simp [hN]
              | true => simpa [hN] using ih c ps hf
            · rw [h2, List.flatMap_append]
              refine List.perm_append_comm.trans ?_
              apply List.Perm.append_right
              simp only [List.flatMap_cons, List.flatMap_nil, List.append_nil, insert_nodeOf]
              have : (GTree.leaf (some g)).nodeOf = some g.node := rfl
              rw [this]
              cases hN : N g.node p with
              | false => simp [hN]
              | true =>
                have := ih (GTree.leaf (some g)) ps (leaf_find _ _)
                rw [leaf_ev] at this
                simpa [hN] using this
          refine (List.Perm.append_left _ hcs).trans ?_
          rw [← List.append_assoc, ← List.append_assoc]
          exact List.Perm.append_right _ List.perm_append_comm

theorem wf_insert (Good : Glob → Prop) (t : GTree) (gs : List Glob) (e : Str × Int)
    (h : WF Good gs.length t) (hg : ∀ g ∈ gs, g.items.length ≠ 0 → Good g) :
    WF Good gs.length (t.insert gs e) := by
  induction gs generalizing t with
  | nil =>
    cases t with
    | node i tm cm cs => rw [GTree.insert]; exact h
  | cons g gs ih =>
    cases t with
    | node i tm cm cs =>
      rw [GTree.insert]
      simp only [List.length_cons, WF] at h
      have ih' := fun t ht => ih t ht (fun g hg' => hg g (by simp [hg']))
      by_cases h0 : g.items.length = 0
      · rw [if_pos h0]
        refine ⟨h.1, ?_, h.2.2⟩
        have hcm : ∀ cm : List (Str × GTree), (∀ x ∈ cm, WF Good gs.length x.2) →
            ∀ x ∈ insertMap (fun c => c.insert gs e) g cm, WF Good gs.length x.2 := by
          intro cm
          induction cm with
          | nil =>
            intro _ x hx
            rw [insertMap, List.mem_singleton] at hx
            subst hx
            exact ih' _ (leaf_wf _ _ _)
          | cons y cm ihc =>
            obtain ⟨k, c⟩ := y
            intro hc x hx
            rw [insertMap] at hx
            split at hx
            · rcases List.mem_cons.1 hx with rfl | hx
              · exact ih' _ (hc (k, c) (by simp))
              · exact hc x (by simp [hx])
            · rcases List.mem_cons.1 hx with rfl | hx
              · exact hc (k, c) (by simp)
              · exact ihc (fun x hx => hc x (by simp [hx])) x hx
        exact hcm cm h.2.1
      · rw [if_neg h0]
        refine ⟨h.1, h.2.1, ?_⟩
        rcases insertChilds_cases cs g gs e with ⟨a, c, b, h3, h1, h2, h4⟩ | ⟨h1, h2⟩
        · rw [h4]
          intro x hx
          have hx' : x ∈ a ∨ x = c.insert gs e ∨ x ∈ b := by simpa using hx
          rcases hx' with hx | rfl | hx
          · exact h.2.2 x (by rw [h3]; simp [hx])
          · have := h.2.2 c (by rw [h3]; simp)
            rw [insert_item]
            exact ⟨this.1, ih' _ this.2⟩
          · exact h.2.2 x (by rw [h3]; simp [hx])
        · rw [h2]
          intro x hx
          rcases List.mem_append.1 hx with hx | hx
          · exact h.2.2 x hx
          · rw [List.mem_singleton] at hx
            subst hx
            rw [insert_item]
            exact ⟨⟨g, rfl, hg g (by simp) h0⟩, ih' _ (leaf_wf _ _ _)⟩

/-! ## Matching -/

theorem mapParts_eq (cm : List (Str × GTree)) (p : Str) (ps : List Str) :
    mapParts cm p ps = match GoMap.get cm p with
      | some c => if ps = [] then .ok (storeTerm c) else c.matchByParts ps
      | none => .ok ([], 0) := by
  induction cm with
  | nil => rfl
  | cons x cm ih =>
    obtain ⟨k, c⟩ := x
    rw [mapParts]
    by_cases h : k = p
    · simp [GoMap.get, h]
    · simp [GoMap.get, h, ih]

theorem mapItems_eq (cm : List (Str × GTree)) (p rest : Str) :
    mapItems cm p rest = match GoMap.get cm p with
      | some c => if rest = [] then .ok (storeTerm c) else c.matchItems rest
      | none => .ok ([], 0) := by
  induction cm with
  | nil => rfl
  | cons x cm ih =>
    obtain ⟨k, c⟩ := x
    rw [mapItems]
    by_cases h : k = p
    · simp [GoMap.get, h]
    · simp [GoMap.get, h, ih]

theorem get_mem {α : Type} {cm : List (Str × α)} {p : Str} {c : α} (h : GoMap.get cm p = some c) :
    (p, c) ∈ cm := by
  induction cm with
  | nil => simp [GoMap.get] at h
  | cons x cm ih =>
    obtain ⟨k, d⟩ := x
    rw [GoMap.get] at h
    by_cases hk : k = p
    · rw [if_pos hk] at h
      simp only [Option.some.injEq] at h
      simp [hk, h]
    · rw [if_neg hk] at h
      simp [ih h]

theorem storeTerm_len (t : GTree) : storeTerm t = ((storeTerm t).1, (storeTerm t).1.length) := by
  unfold storeTerm
  split <;> rfl

/-- Matching by parts, when the part globs answer by their texts. -/
theorem matchByParts_ev {Good : Glob → Prop} {N : Str → Str → Bool} (ps : List Str) (hne : ps ≠ [])
    (t : GTree) (hwf : WF Good ps.length t)
    (hN : ∀ g, Good g → ∀ p ∈ ps, g.matches p = .ok (N g.node p)) :
    t.matchByParts ps = .ok (ev N ps t, (ev N ps t).length) := by
  induction ps generalizing t with
  | nil => exact absurd rfl hne
  | cons p ps ih =>
    cases t with
    | node i tm cm cs =>
      simp only [List.length_cons, WF] at hwf
      rw [GTree.matchByParts, mapParts_eq]
      have sub : ∀ c, WF Good ps.length c →
          (if ps = [] then .ok (storeTerm c) else c.matchByParts ps) =
            R.ok (ev N ps c, (ev N ps c).length) := by
        intro c hc
        by_cases hps : ps = []
        · subst hps; rw [if_pos rfl, storeTerm_len]; rfl
        · rw [if_neg hps]
          exact ih hps c hc (fun g hg p hp => hN g hg p (by simp [hp]))
      have hmap : (match GoMap.get cm p with
          | some c => if ps = [] then .ok (storeTerm c) else c.matchByParts ps
          | none => .ok ([], 0)) = R.ok ((match GoMap.get cm p with
            | some c => ev N ps c
            | none => [] : Events), (match GoMap.get cm p with
            | some c => ev N ps c
            | none => [] : Events).length) := by
        cases hm : GoMap.get cm p with
        | none => rfl
        | some c => exact sub c (hwf.2.1 _ (get_mem hm))
      rw [hmap]
      have hch : ∀ cs : List GTree, (∀ c ∈ cs, (∃ g, c.item = some g ∧ Good g) ∧
          WF Good ps.length c) → childParts cs p ps = .ok (
            (cs.flatMap fun c => if (c.nodeOf.any fun n => N n p) then ev N ps c else []),
            (cs.flatMap fun c => if (c.nodeOf.any fun n => N n p) then ev N ps c else []).length) := by
        intro cs
        induction cs with
        | nil => intro _; rw [childParts]; rfl
        | cons c cs ihc =>
          intro hc
          obtain ⟨⟨g, hg1, hg2⟩, hg3⟩ := hc c (by simp)
          rw [childParts]
          have hm : c.itemMatches p = .ok (N g.node p) := by
            unfold GTree.itemMatches
            rw [hg1]
            exact hN g hg2 p (by simp)
          rw [hm, R.bind_ok, ihc (fun c h => hc c (by simp [h]))]
          have hnode : c.nodeOf = some g.node := by simp [nodeOf, hg1]
          rw [List.flatMap_cons, hnode]
          cases hb : N g.node p with
          | false => simp [addEv, hb]
          | true =>
            simp only [Option.any_some, hb, if_true]
            rw [sub c hg3, R.bind_ok, R.bind_ok]
            simp [addEv]
      rw [hch cs hwf.2.2, R.bind_ok, R.bind_ok]
      simp [addEv, ev]

/-- Both matchers on a path whose parts are not empty. -/
theorem matchItems_split {Good : Glob → Prop} (n : Nat) (path : Str) (t : GTree)
    (hwf : WF Good n t) (hn : (splitByte path 46).length = n)
    (hne : ∀ p ∈ splitByte path 46, p ≠ []) :
    t.matchItems path = t.matchByParts (splitByte path 46) := by
  induction n generalizing path t with
  | zero => exact absurd (List.length_eq_zero_iff.1 hn) (splitByte_ne_nil _ _)
  | succ n ih =>
    cases t with
    | node i tm cm cs =>
      obtain ⟨h1, h2⟩ := splitByte_cut path
      rw [h1] at hn hne ⊢
      rw [GTree.matchItems, GTree.matchByParts, if_neg (hne _ (by simp)), mapParts_eq, mapItems_eq]
      simp only [WF] at hwf
      have sub : ∀ c, WF Good n c →
          (if (cutDot path).2.1 = [] then .ok (storeTerm c) else c.matchItems (cutDot path).2.1) =
          (if (if (cutDot path).2.2 = true then splitByte (cutDot path).2.1 46 else []) = []
            then R.ok (storeTerm c)
            else c.matchByParts
              (if (cutDot path).2.2 = true then splitByte (cutDot path).2.1 46 else [])) := by
        intro c hc
        by_cases hf : (cutDot path).2.2 = true
        · rw [if_pos hf] at hn hne
          rw [if_pos hf, if_neg (splitByte_ne_nil _ _), if_neg, ih _ c hc (by simpa using hn)
            (fun p hp => hne p (by simp [hp]))]
          intro h0
          rw [h0] at hne
          exact hne [] (by simp [splitByte]) rfl
        · rw [if_neg hf, h2 (by simpa using hf), if_pos rfl, if_pos rfl]
      have hch : ∀ cs : List GTree, (∀ c ∈ cs, WF Good n c) →
          childItems cs (cutDot path).1 (cutDot path).2.1 = childParts cs (cutDot path).1
            (if (cutDot path).2.2 = true then splitByte (cutDot path).2.1 46 else []) := by
        intro cs
        induction cs with
        | nil => intro _; rw [childItems, childParts]
        | cons c cs ihc =>
          intro hc
          rw [childItems, childParts, ihc (fun c h => hc c (by simp [h])), sub c (hc c (by simp))]
      rw [hch cs (fun c h => (hwf.2.2 c h).2)]
      congr 1
      cases hm : GoMap.get cm (cutDot path).1 with
      | none => rfl
      | some c => exact sub c (hwf.2.1 _ (get_mem hm))

theorem wf_term {Good : Glob → Prop} {n : Nat} {t : GTree} (h : WF Good (n + 1) t) :
    storeTerm t = ([], 0) := by
  cases t with
  | node i tm cm cs =>
    simp only [WF] at h
    simp [storeTerm, GTree.term, h.1]

/-- A path with an empty part reports nothing. -/
theorem matchItems_empty {Good : Glob → Prop} (n : Nat) (path : Str) (t : GTree)
    (hwf : WF Good n t) (hn : (splitByte path 46).length = n)
    (he : [] ∈ splitByte path 46)
    (hok : ∀ g, Good g → ∀ p ∈ splitByte path 46, p ≠ [] → ∃ b, g.matches p = .ok b) :
    t.matchItems path = .ok ([], 0) := by
  induction n generalizing path t with
  | zero => exact absurd (List.length_eq_zero_iff.1 hn) (splitByte_ne_nil _ _)
  | succ n ih =>
    cases t with
    | node i tm cm cs =>
      obtain ⟨h1, h2⟩ := splitByte_cut path
      rw [GTree.matchItems]
      by_cases hp : (cutDot path).1 = []
      · rw [if_pos hp]
      rw [if_neg hp, mapItems_eq]
      have hf : (cutDot path).2.2 = true := by
        rcases Bool.eq_false_or_eq_true (cutDot path).2.2 with h | h
        · exact h
        · rw [h1, h] at he
          simp at he
          exact absurd he hp
      rw [if_pos hf] at h1
      rw [h1] at hn he hok
      simp only [WF] at hwf
      have hn' : (splitByte (cutDot path).2.1 46).length = n := by simpa using hn
      have sub : ∀ c, WF Good n c →
          (if (cutDot path).2.1 = [] then .ok (storeTerm c) else c.matchItems (cutDot path).2.1) =
          R.ok (([], 0) : Events × Nat) := by
        intro c hc
        by_cases hr : (cutDot path).2.1 = []
        · rw [if_pos hr]
          rw [hr] at hn'
          have : n = 1 := by simpa [splitByte] using hn'.symm
          subst this
          rw [wf_term hc]
        · rw [if_neg hr]
          apply ih _ c hc hn'
          · rcases List.mem_cons.1 he with h | h
            · exact absurd h.symm hp
            · exact h
          · exact fun g hg p hp => hok g hg p (by simp [hp])
      have hch : ∀ cs : List GTree, (∀ c ∈ cs, (∃ g, c.item = some g ∧ Good g) ∧ WF Good n c) →
          childItems cs (cutDot path).1 (cutDot path).2.1 = .ok ([], 0) := by
        intro cs
        induction cs with
        | nil => intro _; rw [childItems]
        | cons c cs ihc =>
          intro hc
          obtain ⟨⟨g, hg1, hg2⟩, hg3⟩ := hc c (by simp)
          obtain ⟨b, hb⟩ := hok g hg2 _ (List.mem_cons_self ..) hp
          rw [childItems, ihc (fun c h => hc c (by simp [h])), sub c hg3]
          unfold GTree.itemMatches
          rw [hg1]
          dsimp only
          rw [hb]
          cases b <;> rfl
      rw [hch cs hwf.2.2]
      cases hm : GoMap.get cm (cutDot path).1 with
      | none => rfl
      | some c =>
        dsimp only
        rw [sub c (hwf.2.1 _ (get_mem hm))]
        rfl

end GoMatcher
