import Verif.Proofs.NodeText
import Verif.Proofs.FlatItems
import Verif.Spec.Stars

/-! # Single items the parser reads: sizes of groups, classes, stars inside braces -/

namespace GoMatcher

/-- Simple items with a class that needs no merging. -/
def LocS : Item → Prop
  | .ranges rs => rs.needMerge = false
  | .list _ | .group _ _ _ | .chain _ _ _ => False
  | _ => True

/-- Items as the parser reads them. -/
def Loc : Item → Prop
  | .list l => ListWF l
  | .group vals mn _ => GroupWF vals mn ∧ 0 ≤ mn ∧ ∀ v ∈ vals, ∀ x ∈ groupItems v, LocS x
  | .ranges rs => rs.needMerge = false
  | .chain _ _ _ => False
  | _ => True

theorem LocS.simple {x : Item} (h : LocS x) : Simple x := by
  cases x <;> first | trivial | exact h.elim

theorem LocS.loc {x : Item} (h : LocS x) : Loc x := by
  cases x <;> first | trivial | exact h.elim | exact h

theorem Loc.flat {x : Item} (h : Loc x) : FlatItem x := by
  cases x <;> first | trivial | exact fun v hv y hy => (h.2.2 v hv y hy).simple

theorem IsLit.locS {it : Item} {ws : List Char} (h : IsLit it ws) : LocS it := by
  cases it <;> first | exact h.elim | trivial

theorem Chunk.locS {c : List Sub} {it : Item} (h : Chunk c it) : LocS it := by
  cases h with
  | lits _ h => exact h.locS
  | any => trivial
  | stars _ => trivial
  | cls h =>
    rcases h.kind with ⟨c, hc⟩ | ⟨rs, rfl, _⟩
    · exact hc.locS
    · exact h.canon rs rfl

theorem mergeItem_locS {x y m : Item} (h : mergeItem x y = some m) : LocS m := by
  cases x <;> cases y <;> simp only [mergeItem, Option.some.injEq, reduceCtorEq] at h <;>
    subst h <;> trivial

theorem RawSubs.locS {ss : List Sub} {raws : List Item} (h : RawSubs ss raws) :
    ∀ x ∈ raws, LocS x := by
  induction h with
  | nil => simp
  | cons h _ ih =>
    intro x hx
    rcases List.mem_cons.1 hx with rfl | hx
    · exact h.locS
    · exact ih x hx

theorem AltItem.locS {a : List Sub} {v : Item} (h : AltItem a v) : ∀ x ∈ groupItems v, LocS x := by
  obtain ⟨raws, hr, hg⟩ := h.raw
  rw [hg]
  refine norm_closed (fun x y m _ _ h => mergeItem_locS h) raws ?_
  rcases hr with ⟨hr, _⟩ | ⟨_, rfl⟩
  · exact hr.locS
  · intro x hx
    rw [List.mem_singleton.1 hx]
    trivial

theorem AltRes.groupWF {alts : List (List Sub)} {vals : List Item} {mn mx : Int}
    (h : AltRes alts (some (.group vals mn mx))) : GroupWF vals mn := by
  cases h with
  | lit _ _ hl => exact hl.elim
  | group hp h h1 h2 hmn hmn' hinf hfin =>
    constructor
    · intro cs hcs
      obtain ⟨v, hv, hsv⟩ := (anySem_iff _ _).1 hcs
      obtain ⟨a, ha, hav⟩ := h2 v hv
      have := hmn v hv
      have := hav.min cs ((hav.sem cs).1 hsv)
      omega
    · intro h0
      obtain ⟨v, hv, e⟩ := hmn'
      obtain ⟨a, ha, hav⟩ := h2 v hv
      refine (anySem_iff _ _).2 ⟨v, hv, (hav.sem []).2 ?_⟩
      have hall := hav.zero (by omega)
      clear hav ha
      induction a with
      | nil => rfl
      | cons s a ih =>
        rw [hall s (by simp)]
        exact ⟨[], [], rfl, trivial, ih (fun x hx => hall x (by simp [hx]))⟩

theorem AltRes.loc {alts : List (List Sub)} {it : Item} (h : AltRes alts (some it)) : Loc it := by
  have h' := h
  cases h with
  | lit _ _ hl => exact hl.locS.loc
  | list hp hw => exact hw
  | star => trivial
  | group hp h h1 h2 hmn hmn' hinf hfin =>
    refine ⟨h'.groupWF, ?_, fun v hv => ?_⟩
    · obtain ⟨v, hv, e⟩ := hmn'
      obtain ⟨a, ha, hav⟩ := h2 v hv
      rw [e]
      exact hav.nonneg
    · obtain ⟨a, ha, hav⟩ := h2 v hv
      exact hav.locS

theorem RawToks.loc {ts : List Tok} {raws : List Item} (h : RawToks ts raws) :
    ∀ x ∈ raws, Loc x := by
  induction h with
  | nil => simp
  | chunk h _ ih =>
    intro x hx
    rcases List.mem_cons.1 hx with rfl | hx
    · exact h.locS.loc
    · exact ih x hx
  | skip _ _ _ ih => exact ih
  | alt _ h _ ih =>
    intro x hx
    rcases List.mem_cons.1 hx with rfl | hx
    · exact h.loc
    · exact ih x hx

/-! ## Stars at the end of alternatives -/

/-- The run of wildcards an item stands for. -/
def Item.run : Item → Run
  | .star 0 => .stars
  | .star (_ + 1) => .mixed
  | .any _ => .mixed
  | _ => .none

theorem IsLit.run {it : Item} {ws : List Char} (h : IsLit it ws) : it.run = .none := by
  cases it <;> first | exact h.elim | rfl

/-- Wildcards of an `any` item. -/
def AnyPos : Item → Prop
  | .any n => 0 < n
  | _ => True

theorem mergeItem_anyPos {x y m : Item} (hx : AnyPos x) (hy : AnyPos y)
    (h : mergeItem x y = some m) : AnyPos m := by
  cases x <;> cases y <;> simp only [mergeItem, Option.some.injEq, reduceCtorEq] at h <;>
    subst h <;> simp_all [AnyPos]
  all_goals omega

theorem Chunk.anyPos {c : List Sub} {it : Item} (h : Chunk c it) : AnyPos it := by
  cases h with
  | lits _ h => cases it <;> first | exact h.elim | trivial
  | any => exact Nat.one_pos
  | stars _ => trivial
  | cls h =>
    rcases h.kind with ⟨c, hc⟩ | ⟨rs, rfl, _⟩
    · cases it <;> first | exact hc.elim | trivial
    · trivial

theorem starsEnd_lits (r : Run) (cs : List Char) (hne : cs ≠ []) (ss : List Sub)
    (h : starsEnd r (cs.map .lit ++ ss) = true) : r ≠ .stars ∧ starsEnd .none ss = true := by
  induction cs generalizing r with
  | nil => exact absurd rfl hne
  | cons c cs ih =>
    simp only [List.map_cons, List.cons_append, starsEnd, Bool.and_eq_true, decide_eq_true_eq] at h
    refine ⟨h.1, ?_⟩
    cases cs with
    | nil => exact h.2
    | cons d cs => exact (ih .none (by simp) h.2).2

theorem starsEnd_stars (r : Run) (k : Nat) (ss : List Sub)
    (h : starsEnd r (List.replicate (k + 1) .star ++ ss) = true) :
    starsEnd (if r = .mixed then .mixed else .stars) ss = true := by
  induction k generalizing r with
  | zero => exact h
  | succ k ih =>
    rw [List.replicate_succ, List.cons_append, starsEnd] at h
    have := ih _ h
    cases r <;> exact this

/-- The run after a chunk. -/
theorem Chunk.starsEnd {c : List Sub} {it : Item} (h : Chunk c it) (r : Run) (ss : List Sub)
    (hs : starsEnd r (c ++ ss) = true) :
    (it = .star 0 ∧ starsEnd (if r = .mixed then .mixed else .stars) ss = true) ∨
    (it = .any 1 ∧ starsEnd .mixed ss = true) ∨
    (it.run = .none ∧ r ≠ .stars ∧ starsEnd .none ss = true ∧ ∀ n, it ≠ .any n ∧ it ≠ .star n) := by
  have nn : ∀ {ws : List Char}, IsLit it ws → ∀ n, it ≠ .any n ∧ it ≠ .star n := by
    rintro ws hl n
    constructor <;> rintro rfl <;> exact hl.elim
  cases h with
  | lits hne h =>
    obtain ⟨h1, h2⟩ := starsEnd_lits r _ hne ss hs
    exact Or.inr (Or.inr ⟨h.run, h1, h2, nn h⟩)
  | any => exact Or.inr (Or.inl ⟨rfl, hs⟩)
  | stars k => exact Or.inl ⟨rfl, starsEnd_stars r k ss hs⟩
  | cls h =>
    simp only [List.cons_append, List.nil_append, GoMatcher.starsEnd, Bool.and_eq_true,
      decide_eq_true_eq] at hs
    refine Or.inr (Or.inr ⟨?_, hs.1, hs.2, ?_⟩)
    · rcases h.kind with ⟨c, hc⟩ | ⟨rs, rfl, _⟩
      · exact hc.run
      · rfl
    · rcases h.kind with ⟨c, hc⟩ | ⟨rs, rfl, _⟩
      · exact nn hc
      · simp

theorem normAux_starLast {ss : List Sub} {raws : List Item} (h : RawSubs ss raws) (x : Item)
    (hx : AnyPos x) (hs : starsEnd x.run ss = true) : StarLast (normAux x raws) := by
  induction h generalizing x with
  | nil => exact ⟨fun _ => rfl, trivial⟩
  | @cons c it ss raws hc hr ih =>
    unfold normAux
    rcases hc.starsEnd _ _ hs with ⟨rfl, h⟩ | ⟨rfl, h⟩ | ⟨h1, h2, h3, h4⟩
    · cases x with
      | star n =>
        have : mergeItem (.star n) (.star 0) = some (.star (n + 0)) := rfl
        rw [this]
        refine ih _ trivial ?_
        cases n <;> simpa [Item.run] using h
      | any n =>
        have : mergeItem (.any n) (.star 0) = some (.star (0 + n)) := rfl
        rw [this]
        refine ih _ trivial ?_
        simp only [AnyPos] at hx
        obtain ⟨m, rfl⟩ : ∃ m, n = m + 1 := ⟨n - 1, by omega⟩
        rw [Nat.zero_add]
        simpa [Item.run] using h
      | _ =>
        refine ⟨by simp, ih _ trivial ?_⟩
        simpa [Item.run] using h
    · cases x with
      | star n =>
        have : mergeItem (.star n) (.any 1) = some (.star (n + 1)) := rfl
        rw [this]
        exact ih _ trivial h
      | any n =>
        have : mergeItem (.any n) (.any 1) = some (.any (n + 1)) := rfl
        rw [this]
        exact ih _ (Nat.succ_pos _) h
      | _ => exact ⟨by simp, ih _ Nat.one_pos h⟩
    · cases hm : mergeItem x it with
      | some m =>
        dsimp only
        refine ih m (mergeItem_anyPos hx hc.anyPos hm) ?_
        have : m.run = .none := by
          cases x <;> cases it <;> simp only [mergeItem, Option.some.injEq, reduceCtorEq] at hm <;>
            first | (subst hm; rfl) | exact absurd rfl (h4 _).1 | exact absurd rfl (h4 _).2
        rw [this]
        exact h3
      | none =>
        dsimp only
        refine ⟨?_, ih it hc.anyPos (by rw [h1]; exact h3)⟩
        rintro rfl
        exact absurd rfl h2

theorem AltItem.starLast {a : List Sub} {v : Item} (h : AltItem a v) (hs : starsEnd .none a = true) :
    StarLast (groupItems v) := by
  obtain ⟨raws, hr, hg⟩ := h.raw
  rw [hg]
  rcases hr with ⟨hr, hne⟩ | ⟨_, rfl⟩
  · cases hr with
    | nil => exact absurd rfl hne
    | cons hc hr =>
      refine normAux_starLast hr _ hc.anyPos ?_
      rcases hc.starsEnd _ _ hs with ⟨rfl, h⟩ | ⟨rfl, h⟩ | ⟨h1, h2, h3, h4⟩
      · exact h
      · exact h
      · rw [h1]; exact h3
  · exact ⟨by simp, trivial⟩

theorem AltRes.flatTerm {alts : List (List Sub)} {it : Item} (h : AltRes alts (some it))
    (hs : ∀ a ∈ alts, starsEnd .none a = true) : FlatTerm it := by
  cases h with
  | lit _ _ hl => cases it <;> first | exact hl.elim | trivial
  | list hp hw => trivial
  | star => trivial
  | group hp h h1 h2 hmn hmn' hinf hfin =>
    intro v hv
    obtain ⟨a, ha, hav⟩ := h2 v hv
    exact ⟨fun x hx => (hav.locS x hx).simple, hav.starLast (hs a ha)⟩

theorem LocS.flatTerm {x : Item} (h : LocS x) : FlatTerm x := by
  cases x <;> first | trivial | exact h.elim

theorem RawToks.flatTerm {ts : List Tok} {raws : List Item} (h : RawToks ts raws)
    (hs : StarsEnd ts) : ∀ x ∈ raws, FlatTerm x := by
  induction h with
  | nil => simp
  | chunk h _ ih =>
    intro x hx
    rcases List.mem_cons.1 hx with rfl | hx
    · exact h.locS.flatTerm
    · exact ih (fun a ha => hs a (by simp [ha])) x hx
  | skip _ _ _ ih => exact ih (fun a ha => hs a (by simp [ha]))
  | alt _ h _ ih =>
    intro x hx
    rcases List.mem_cons.1 hx with rfl | hx
    · exact h.flatTerm (hs _ (by simp))
    · exact ih (fun a ha => hs a (by simp [ha])) x hx

/-! ## No stars -/

def NotStar : Item → Prop
  | .star _ => False
  | _ => True

theorem NotStar.ne {x : Item} (h : NotStar x) (n : Nat) : x ≠ .star n := by
  rintro rfl; exact h

theorem IsLit.notStar {it : Item} {ws : List Char} (h : IsLit it ws) : NotStar it := by
  cases it <;> first | exact h.elim | trivial

theorem Chunk.notStar {c : List Sub} {it : Item} (h : Chunk c it) (hs : Sub.star ∉ c) :
    NotStar it := by
  cases h with
  | lits _ h => exact h.notStar
  | any => trivial
  | stars k => exact absurd (by simp [List.replicate_succ]) hs
  | cls h =>
    rcases h.kind with ⟨c, hc⟩ | ⟨rs, rfl, _⟩
    · exact hc.notStar
    · trivial

theorem mergeItem_notStar {x y m : Item} (hx : NotStar x) (hy : NotStar y)
    (h : mergeItem x y = some m) : NotStar m := by
  cases x <;> cases y <;> simp only [mergeItem, Option.some.injEq, reduceCtorEq] at h <;>
    first | (subst h; trivial) | exact hx.elim | exact hy.elim

theorem RawSubs.notStar {ss : List Sub} {raws : List Item} (h : RawSubs ss raws)
    (hs : Sub.star ∉ ss) : ∀ x ∈ raws, NotStar x := by
  induction h with
  | nil => simp
  | cons h _ ih =>
    intro x hx
    rcases List.mem_cons.1 hx with rfl | hx
    · exact h.notStar (fun h => hs (by simp [h]))
    · exact ih (fun h => hs (by simp [h])) x hx

theorem AltItem.notStar {a : List Sub} {v : Item} (h : AltItem a v) (hs : Sub.star ∉ a) :
    ∀ x ∈ groupItems v, NotStar x := by
  obtain ⟨raws, hr, hg⟩ := h.raw
  rw [hg]
  refine norm_closed (fun x y m hx hy h => mergeItem_notStar hx hy h) raws ?_
  rcases hr with ⟨hr, _⟩ | ⟨_, rfl⟩
  · exact hr.notStar hs
  · intro x hx
    rw [List.mem_singleton.1 hx]
    trivial

theorem LocS.starFree {x : Item} (h : LocS x) (hn : NotStar x) : StarFree x := by
  cases x <;> first | trivial | exact h.elim | exact hn.elim

theorem AltRes.starFree {alts : List (List Sub)} {it : Item} (h : AltRes alts (some it))
    (hs : ∀ a ∈ alts, Sub.star ∉ a) : StarFree it := by
  cases h with
  | lit _ _ hl => exact hl.locS.starFree hl.notStar
  | list hp hw => trivial
  | star _ h => exact absurd (by simp) (hs _ h)
  | group hp h h1 h2 hmn hmn' hinf hfin =>
    intro v hv x hx
    obtain ⟨a, ha, hav⟩ := h2 v hv
    exact (hav.notStar (hs a ha) x hx).ne

theorem mergeItem_starFree {x y m : Item} (hx : StarFree x) (hy : StarFree y)
    (h : mergeItem x y = some m) : StarFree m := by
  refine (mergeItem_locS h).starFree ?_
  cases x <;> cases y <;> simp only [mergeItem, Option.some.injEq, reduceCtorEq] at h <;>
    first | (subst h; trivial) | exact hx.elim | exact hy.elim

theorem RawToks.starFree {ts : List Tok} {raws : List Item} (h : RawToks ts raws)
    (hs : ¬ HasStar ts) : ∀ x ∈ raws, StarFree x := by
  have later : ∀ {t : List Tok} {us : List Tok}, ¬ HasStar (t ++ us) → ¬ HasStar us := by
    rintro t us h (h1 | ⟨alts, a, h1, h2⟩)
    · exact h (Or.inl (by simp [h1]))
    · exact h (Or.inr ⟨alts, a, by simp [h1], h2⟩)
  induction h with
  | nil => simp
  | chunk h _ ih =>
    intro x hx
    rcases List.mem_cons.1 hx with rfl | hx
    · refine h.locS.starFree (h.notStar fun hm => hs (Or.inl ?_))
      simp [hm]
    · exact ih (later hs) x hx
  | @skip alts ts _ _ _ _ ih => exact ih (later (t := [.alt alts]) hs)
  | @alt alts _ ts _ _ h _ ih =>
    intro x hx
    rcases List.mem_cons.1 hx with rfl | hx
    · exact h.starFree (fun a ha hm => hs (Or.inr ⟨_, a, by simp, ha, hm⟩))
    · exact ih (later (t := [.alt alts]) hs) x hx

end GoMatcher
