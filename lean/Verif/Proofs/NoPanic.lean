import Verif.Proofs.BytesParse
import Verif.Proofs.GlobExact

/-! # Kinds of items that occur in a parsed glob

`Kind U L`: `U` is a property of byte strings that the parser's cuts keep, `L` a property of the
items outside of braces and groups that strings with `U` lead to. -/

namespace GoMatcher

structure Kind (U : Str → Prop) (L : Item → Prop) : Prop where
  left : ∀ {a t : Str} {b : UInt8}, U (a ++ b :: t) → b.toNat < 128 → U a
  leftB : ∀ {a t : Str} {b : UInt8}, U (a ++ b :: t) → b.toNat < 128 → U (a ++ [b])
  right : ∀ {a t : Str} {b : UInt8}, U (a ++ b :: t) → b.toNat < 128 → U (b :: t)
  tail : ∀ {t : Str} {b : UInt8}, U (b :: t) → b.toNat < 128 → U t
  empty : U []
  flat : ∀ x, L x → groupItems x = [x]
  str : ∀ s, L (.str s)
  lit : ∀ s, U s → s ≠ [] → L (literalItem s)
  cls : ∀ s body rs it, U s → 91 ∈ s → RunesRanges.expand (91 :: body ++ [93]) = some rs → classItem rs = some it → L it
  star : ∀ s, U s → 42 ∈ s → L (.star 0)
  any : ∀ s, U s → 63 ∈ s → L (.any 1)
  merge : ∀ x y z, L x → L y → mergeItem x y = some z → L z

/-- An item of a glob: one with `L`, a list, or a group of rows of items with `L`. -/
def KindItem (L : Item → Prop) (it : Item) : Prop :=
  L it ∨ (∃ l, it = .list l) ∨
  ∃ vals mn mx, it = .group vals mn mx ∧ ∀ v ∈ vals, ∀ x ∈ groupItems v, L x

variable {U : Str → Prop} {L : Item → Prop}

theorem mem_appendItem {P : Item → Prop} (hm : ∀ x y z, P x → P y → mergeItem x y = some z → P z)
    {items : List Item} {it : Item} (hs : ∀ x ∈ items, P x) (hi : P it) :
    ∀ x ∈ appendItem items it, P x := by
  unfold appendItem
  cases hl : items.getLast? with
  | none => simpa using hi
  | some last =>
    dsimp only
    have hlast := hs last (List.mem_of_getLast? hl)
    cases hmi : mergeItem last it with
    | none =>
      intro x hx
      rcases List.mem_append.1 hx with hx | hx
      · exact hs x hx
      · rw [List.mem_singleton.1 hx]; exact hi
    | some m =>
      intro x hx
      rcases List.mem_append.1 hx with hx | hx
      · exact hs x (List.dropLast_subset _ hx)
      · rw [List.mem_singleton.1 hx]; exact hm _ _ _ hlast hi hmi

theorem mergeItem_top (k : Kind U L) (x y z : Item) (hx : KindItem L x) (hy : KindItem L y)
    (h : mergeItem x y = some z) : KindItem L z := by
  rcases hx with hx | ⟨l, rfl⟩ | ⟨v, mn, mx, rfl, _⟩
  · rcases hy with hy | ⟨l, rfl⟩ | ⟨v, mn, mx, rfl, _⟩
    · exact .inl (k.merge _ _ _ hx hy h)
    · cases x <;> cases h
    · cases x <;> cases h
  · cases y <;> cases h
  · cases y <;> cases h

theorem groupOf_top {items : List Item} (h : ∀ v ∈ items, ∀ x ∈ groupItems v, L x) {it : Item}
    (e : groupOf items = some it) : KindItem L it := by
  unfold groupOf at e
  split at e
  · cases e
  · cases e
    exact .inr (.inr ⟨_, _, _, rfl, h⟩)

theorem Kind.cut (k : Kind U L) {s : Str} (h : U s) {n : Nat} (hn : n < s.length)
    (hb : s[n].toNat < 128) : U (s.take n) ∧ U (s.drop n) := by
  have e : s = s.take n ++ s[n] :: s.drop (n + 1) := by
    rw [List.getElem_cons_drop, List.take_append_drop]
  constructor
  · rw [e] at h; exact k.left h hb
  · rw [e] at h
    have := k.right h hb
    rwa [List.getElem_cons_drop] at this

theorem Kind.join (k : Kind U L) {s : Str} {sep : UInt8} (hsep : sep.toNat < 128) (h : U s) :
    ∀ v ∈ splitByte s sep, U v := by
  have e := joinByte_splitByte s sep
  rw [← e] at h
  revert h
  generalize splitByte s sep = ps
  intro h
  induction ps with
  | nil => simp
  | cons p ps ih =>
    cases ps with
    | nil =>
      intro v hv
      rw [List.mem_singleton.1 hv]
      exact h
    | cons q ps =>
      rw [joinByte] at h
      intro v hv
      rcases List.mem_cons.1 hv with rfl | hv
      · exact k.left h hsep
      · exact ih (k.tail (k.right h hsep) hsep) v hv

theorem listItem_top {vals : List Str} {it : Item} (k : Kind U L) (hu : ∀ v ∈ vals, U v)
    (h : listItem vals = .inl (.ok (some it))) : KindItem L it := by
  unfold listItem at h
  split at h
  · cases h
  · split at h
    · cases h
    · rename_i hne
      cases h
      exact .inl (k.lit _ (hu _ (by simp)) hne)
  · dsimp only at h
    split at h
    · cases h
    · split at h
      · cases h
      · cases h
        exact .inr (.inl ⟨_, rfl⟩)

theorem kinds (k : Kind U L) (fuel : Nat) :
    (∀ s it rest, nextItem fuel s = .ok (.ok (it, rest)) → U s →
      U rest ∧ (∀ x, it = some x → KindItem L x) ∧ (125 ∉ s → ∀ x, it = some x → L x) ∧
      (∀ b ∈ rest, b ∈ s)) ∧
    (∀ vals items it, newGroup fuel vals items = .ok (.ok (some it)) → (∀ v ∈ vals, U v ∧ 125 ∉ v) →
      (∀ v ∈ items, ∀ x ∈ groupItems v, L x) → KindItem L it) ∧
    (∀ v c c', chainLoop fuel v c = .ok (.ok c') → U v → 125 ∉ v → (∀ x ∈ c.items, L x) →
      ∀ x ∈ c'.items, L x) := by
  induction fuel with
  | zero =>
    refine ⟨?_, ?_, ?_⟩
    · intro s it rest h; cases h
    · intro v i r h; cases h
    · intro v c r h; cases h
  | succ fuel ih =>
    obtain ⟨ih1, ih2, ih3⟩ := ih
    refine ⟨?_, ?_, ?_⟩
    · intro s it rest h hu
      cases s with
      | nil => cases h
      | cons b t =>
        rw [nextItem] at h
        dsimp only at h
        by_cases h91 : b = 91
        · subst h91
          rw [if_pos rfl] at h
          rcases byte_span 93 t with hno | ⟨body, rest', rfl, hno⟩
          · exfalso
            have hcut : cutAfter (91 :: t) 93 = .ok (91 :: t, []) := by
              unfold cutAfter
              have : strIndex (91 :: t) [93] = none := by
                rw [strIndex_none]
                intro p q h
                have hm : (93 : UInt8) ∈ 91 :: t := by rw [h]; simp
                rcases List.mem_cons.1 hm with h | h
                · exact absurd h (by decide)
                · exact hno h
              rw [this]
            have he : RunesRanges.expand (91 :: t) = none := by
              have hn : ¬ t.getLast? = some 0x5D := fun h => hno (List.mem_of_getLast? h)
              simp only [RunesRanges.expand, if_neg hn]
            rw [hcut] at h
            simp only [R.bind_ok] at h
            rw [he] at h
            cases h
          · have hcut := cutAfter_byte (a := 91 :: body) (b := 93) rest' (by
              intro hm
              rcases List.mem_cons.1 hm with h | h
              · exact absurd h (by decide)
              · exact hno h)
            rw [← List.cons_append, hcut] at h
            simp only [R.bind_ok] at h
            cases he : RunesRanges.expand (91 :: body ++ [93]) with
            | none => rw [he] at h; cases h
            | some rs =>
              rw [he] at h
              injection h with h
              injection h with h
              injection h with h1 h2
              subst h2
              have hl : ∀ x, it = some x → L x := fun x hx =>
                k.cls _ body rs x hu (by simp) he (by rw [h1, hx])
              refine ⟨?_, fun x hx => .inl (hl x hx), fun _ => hl, ?_⟩
              · rw [← List.cons_append] at hu
                exact k.tail (k.right hu (by decide)) (by decide)
              · intro b hb; simp [hb]
        rw [if_neg h91] at h
        by_cases h123 : b = 123
        · subst h123
          rw [if_pos rfl] at h
          rcases byte_span 125 t with hno | ⟨body, rest', rfl, hno⟩
          · exfalso
            have hcut : cutAfter (123 :: t) 125 = .ok (123 :: t, []) := by
              unfold cutAfter
              have : strIndex (123 :: t) [125] = none := by
                rw [strIndex_none]
                intro p q h
                have hm : (125 : UInt8) ∈ 123 :: t := by rw [h]; simp
                rcases List.mem_cons.1 hm with h | h
                · exact absurd h (by decide)
                · exact hno h
              rw [this]
            have he : listExpand (123 :: t) = none := by
              unfold listExpand
              rw [if_neg]
              rintro ⟨_, _, h⟩
              rcases List.mem_cons.1 (List.mem_of_getLast? h) with h | h
              · exact absurd h (by decide)
              · exact hno h
            rw [hcut] at h
            simp only [R.bind_ok] at h
            rw [he] at h
            cases h
          · have hcut := cutAfter_byte (a := 123 :: body) (b := 125) rest' (by
              intro hm
              rcases List.mem_cons.1 hm with h | h
              · exact absurd h (by decide)
              · exact hno h)
            rw [← List.cons_append, hcut] at h
            simp only [R.bind_ok] at h
            rw [← List.cons_append] at hu ⊢
            have hur := k.tail (k.right hu (by decide)) (by decide)
            have hub := k.tail (k.left hu (by decide)) (by decide)
            have hin : (125 : UInt8) ∈ 123 :: body ++ 125 :: rest' := by simp
            suffices H : (∀ x, it = some x → KindItem L x) ∧ rest = rest' by
              rw [H.2]
              exact ⟨hur, H.1, fun hn => absurd hin hn, fun b hb => by simp [hb]⟩
            by_cases hbody : body = []
            · subst hbody
              have hle : listExpand (123 :: [] ++ [125]) = some [] := by
                have := listExpand_braces []
                simpa using this
              rw [hle] at h
              dsimp only [listItem] at h
              injection h with h
              injection h with h
              injection h with h1 h2
              exact ⟨(fun x hx => by rw [← h1] at hx; cases hx), h2.symm⟩
            · cases hle : listExpand (123 :: body ++ [125]) with
              | none => rw [hle] at h; cases h
              | some vals =>
                obtain ⟨_, hm⟩ := values_of hbody hle
                have hvals : ∀ v ∈ vals, U v ∧ 125 ∉ v := by
                  intro v hv
                  have hv' := (hm v).1 hv
                  refine ⟨k.join (by decide) hub v hv', fun hx => hno ?_⟩
                  rw [← joinByte_splitByte body 44]
                  exact mem_joinByte hv' hx
                rw [hle] at h
                dsimp only at h
                cases hl : listItem vals with
                | inl r =>
                  rw [hl] at h
                  dsimp only at h
                  cases r with
                  | timeout => cases h
                  | panic => cases h
                  | ok y =>
                    simp only [R.bind_ok] at h
                    injection h with h
                    injection h with h
                    injection h with h1 h2
                    refine ⟨fun x hx => ?_, h2.symm⟩
                    rw [h1, hx] at hl
                    exact listItem_top k (fun v hv => (hvals v hv).1) hl
                | inr u =>
                  rw [hl] at h
                  dsimp only at h
                  cases hg : newGroup fuel vals [] with
                  | timeout => rw [hg] at h; cases h
                  | panic => rw [hg] at h; cases h
                  | ok y =>
                    rw [hg] at h
                    simp only [R.bind_ok] at h
                    cases y with
                    | error e => cases h
                    | ok y =>
                      injection h with h
                      injection h with h
                      injection h with h1 h2
                      refine ⟨fun x hx => ?_, h2.symm⟩
                      rw [h1, hx] at hg
                      exact ih2 _ _ _ hg hvals (by simp)
        rw [if_neg h123] at h
        by_cases h42 : b = 42
        · rw [if_pos h42] at h
          obtain ⟨n, rest', e, hsk⟩ := skipStars_bytes (b :: t)
          rw [hsk] at h
          simp only [R.bind_ok] at h
          injection h with h
          injection h with h
          injection h with h1 h2
          subst h2
          have hl : ∀ x, it = some x → L x := by
            intro x hx
            rw [← h1] at hx
            cases hx
            exact k.star _ hu (by simp [h42])
          refine ⟨?_, fun x hx => .inl (hl x hx), fun _ => hl, ?_⟩
          · rw [e] at hu
            clear h1 hl hsk e
            induction n with
            | zero => exact hu
            | succ n ih => exact ih (k.tail (b := 42) hu (by decide))
          · intro b hb; rw [e]; simp [hb]
        rw [if_neg h42] at h
        by_cases h63 : b = 63
        · subst h63
          rw [if_pos rfl] at h
          injection h with h
          injection h with h
          injection h with h1 h2
          subst h2
          have hl : ∀ x, it = some x → L x := by
            intro x hx
            rw [← h1] at hx
            cases hx
            exact k.any _ hu (by simp)
          exact ⟨k.tail hu (by decide), fun x hx => .inl (hl x hx), fun _ => hl, fun b hb => by simp [hb]⟩
        rw [if_neg h63] at h
        by_cases hcl : b = 93 ∨ b = 125
        · rw [if_pos (by simpa using hcl)] at h
          cases h
        rw [if_neg (by simpa using hcl)] at h
        cases hi : indexWildcard (b :: t) with
        | none =>
          rw [hi] at h
          injection h with h
          injection h with h
          injection h with h1 h2
          subst h2
          have hl : ∀ x, it = some x → L x := by
            intro x hx
            rw [← h1] at hx
            cases hx
            exact k.str _
          refine ⟨?_, fun x hx => .inl (hl x hx), fun _ => hl, by simp⟩
          exact k.empty
        | some n =>
          rw [hi] at h
          dsimp only at h
          obtain ⟨hlt, hw, hpre⟩ := indexP_some.1 hi
          rw [sliceTo, if_pos (by omega), sliceFrom, if_pos (by omega)] at h
          simp only [R.bind_ok] at h
          injection h with h
          injection h with h
          injection h with h1 h2
          have hasc : (b :: t)[n].toNat < 128 := by
            simp only [isWild, Bool.or_eq_true, decide_eq_true_eq] at hw
            rcases hw with ((((h | h) | h) | h) | h) | h <;> rw [h] <;> decide
          obtain ⟨u1, u2⟩ := k.cut hu hlt hasc
          have hl : ∀ x, it = some x → L x := by
            intro x hx
            rw [← h1] at hx
            cases hx
            refine k.lit _ u1 ?_
            intro h0
            rw [List.take_eq_nil_iff] at h0
            rcases h0 with rfl | h0
            · simp only [List.getElem_cons_zero, isWild, Bool.or_eq_true, decide_eq_true_eq] at hw
              rcases hw with ((((h | h) | h) | h) | h) | h
              · exact h91 h
              · exact hcl (.inl h)
              · exact h123 h
              · exact hcl (.inr h)
              · exact h42 h
              · exact h63 h
            · cases h0
          rw [← h2]
          exact ⟨u2, fun x hx => .inl (hl x hx), fun _ => hl, fun b hb => List.drop_subset _ _ hb⟩
    · intro vals items it h hv hi
      cases vals with
      | nil =>
        rw [newGroup] at h
        injection h with h
        injection h with h
        exact groupOf_top hi h
      | cons v vs =>
        rw [newGroup] at h
        obtain ⟨hu, hno⟩ := hv v (by simp)
        have hvs : ∀ w ∈ vs, U w ∧ 125 ∉ w := fun w hw => hv w (by simp [hw])
        have snoc : ∀ {x : Item}, (∀ y ∈ groupItems x, L y) →
            ∀ w ∈ items ++ [x], ∀ y ∈ groupItems w, L y := by
          intro x hx w hw
          rcases List.mem_append.1 hw with hw | hw
          · exact hi w hw
          · rw [List.mem_singleton.1 hw]; exact hx
        split at h
        · split at h
          · rename_i h42
            injection h with h
            injection h with h
            cases h
            exact .inl (k.star v hu (by simp [h42]))
          · split at h
            · rename_i h63
              refine ih2 _ _ _ h hvs (snoc ?_)
              intro y hy
              rw [List.mem_singleton.1 hy]
              exact k.any v hu (by simp [h63])
            · cases hc : chainLoop fuel v {} with
              | timeout => rw [hc] at h; cases h
              | panic => rw [hc] at h; cases h
              | ok x =>
                rw [hc] at h
                simp only [R.bind_ok] at h
                cases x with
                | error e => cases h
                | ok c =>
                  dsimp only at h
                  have hitems := ih3 _ _ _ hc hu hno (by simp)
                  refine ih2 _ _ _ h hvs (snoc ?_)
                  split
                  · rename_i x hx
                    intro y hy
                    have hlx := hitems x (by rw [hx]; simp)
                    rw [k.flat x hlx] at hy
                    rw [List.mem_singleton.1 hy]
                    exact hlx
                  · exact hitems
        · refine ih2 _ _ _ h hvs (snoc ?_)
          intro y hy
          rw [List.mem_singleton.1 hy]
          exact k.str v
    · intro v c c' h hu hno hc
      cases v with
      | nil =>
        rw [chainLoop] at h
        injection h with h
        injection h with h
        rw [← h]; exact hc
      | cons b t =>
        rw [chainLoop] at h
        cases hn : nextItem fuel (b :: t) with
        | timeout => rw [hn] at h; cases h
        | panic => rw [hn] at h; cases h
        | ok x =>
          rw [hn] at h
          simp only [R.bind_ok] at h
          cases x with
          | error e => cases h
          | ok p =>
            obtain ⟨it, rest⟩ := p
            obtain ⟨u, _, hl, hsub⟩ := ih1 _ _ _ hn hu
            have hno' : 125 ∉ rest := fun h => hno (hsub _ h)
            cases it with
            | none => exact ih3 _ _ _ h u hno' hc
            | some x =>
              refine ih3 _ _ _ h u hno' ?_
              exact mem_appendItem k.merge hc (hl hno x rfl)

theorem loop_kinds (k : Kind U L) (fuel : Nat) (s : Str) (st st' : ParseSt)
    (h : parseLoop fuel s st = .ok (.ok st')) (hu : U s) (hi : ∀ x ∈ st.inners, KindItem L x) :
    ∀ x ∈ st'.inners, KindItem L x := by
  induction fuel generalizing s st with
  | zero => cases h
  | succ fuel ih =>
    cases s with
    | nil =>
      rw [parseLoop] at h
      injection h with h
      injection h with h
      rw [← h]; exact hi
    | cons b t =>
      rw [parseLoop] at h
      cases hn : nextItem fuel (b :: t) with
      | timeout => rw [hn] at h; cases h
      | panic => rw [hn] at h; cases h
      | ok x =>
        rw [hn] at h
        simp only [R.bind_ok] at h
        cases x with
        | error e => cases h
        | ok p =>
          obtain ⟨it, rest⟩ := p
          obtain ⟨u, ht, _, _⟩ := (kinds k fuel).1 _ _ _ hn hu
          cases it with
          | none => exact ih _ _ h u hi
          | some x =>
            refine ih _ _ h u ?_
            have hx := ht x rfl
            unfold ParseSt.step
            dsimp only
            split
            · split
              · exact hi
              · exact hi
              · exact hi
              · intro y hy
                rw [List.mem_singleton.1 hy]; exact hx
            · exact mem_appendItem (mergeItem_top k) hi hx

theorem lastIndexP_at {p : UInt8 → Bool} {s : Str} {i : Nat} (h : lastIndexP p s = some i) :
    p (s[i]'(lastIndexP_lt h)) = true := by
  induction s generalizing i with
  | nil => cases h
  | cons b t ih =>
    have h' := h
    rw [lastIndexP] at h'
    cases hl : lastIndexP p t with
    | some j =>
      rw [hl] at h'
      simp only [Option.some.injEq] at h'
      subst h'
      exact ih hl
    | none =>
      rw [hl] at h'
      simp only at h'
      split at h'
      · simp only [Option.some.injEq] at h'
        subst h'
        assumption
      · cases h'

theorem parse_kinds (k : Kind U L) {s : Str} {g : Glob} (h : parseGlob s = .ok (.ok g)) (hu : U s) :
    ∀ x ∈ g.items, KindItem L x := by
  unfold parseGlob at h
  cases hp : indexWildcard s with
  | none =>
    rw [hp] at h
    injection h with h
    injection h with h
    rw [← h]
    intro x hx; cases hx
  | some pos =>
    rw [hp] at h
    dsimp only at h
    obtain ⟨hlt, hw, _⟩ := indexP_some.1 hp
    rw [sliceTo, if_pos (by omega), sliceFrom, if_pos (by omega)] at h
    simp only [R.bind_ok] at h
    have wasc : ∀ {b : UInt8}, isWild b = true → b.toNat < 128 := by
      intro b hw
      simp only [isWild, Bool.or_eq_true, decide_eq_true_eq] at hw
      rcases hw with ((((h | h) | h) | h) | h) | h <;> rw [h] <;> decide
    obtain ⟨_, u2⟩ := k.cut hu hlt (wasc hw)
    cases hl : indexLastWildcard (s.drop pos) with
    | none => rw [hl] at h; cases h
    | some e =>
      rw [hl] at h
      cases hb : s.drop pos with
      | nil => rw [hb] at h; cases h
      | cons b0 t =>
        rw [hb] at h hl u2
        dsimp only at h
        split at h
        · cases h
        · have helt := lastIndexP_lt hl
          have hcut : ∃ suff, (if (e : Int) < ((b0 :: t).length : Int) - 1 then do
                let suff ← sliceFrom (b0 :: t) (e + 1)
                let body ← sliceTo (b0 :: t) (e + 1)
                R.ok (body, suff)
              else R.ok (b0 :: t, [])) = .ok ((b0 :: t).take (e + 1), suff) := by
            split
            · refine ⟨(b0 :: t).drop (e + 1), ?_⟩
              rw [sliceFrom, if_pos (by omega), sliceTo, if_pos (by omega)]
              rfl
            · refine ⟨[], ?_⟩
              rw [List.take_of_length_le (by omega)]
          obtain ⟨suff, hcut⟩ := hcut
          rw [hcut] at h
          simp only [R.bind_ok] at h
          have hub : U ((b0 :: t).take (e + 1)) := by
            have hwe : isWild ((b0 :: t)[e]) = true := lastIndexP_at hl
            have e1 : b0 :: t = (b0 :: t).take e ++ (b0 :: t)[e] :: (b0 :: t).drop (e + 1) := by
              rw [List.getElem_cons_drop, List.take_append_drop]
            rw [List.take_succ_eq_append_getElem helt]
            rw [e1] at u2
            exact k.leftB u2 (wasc hwe)
          generalize (b0 :: t).take (e + 1) = body at h hub
          split at h
          · rename_i h42
            injection h with h
            injection h with h
            rw [← h, finishGlob_items]
            intro x hx
            rw [List.mem_singleton.1 hx]
            exact .inl (k.star _ hub (by simp [h42]))
          · split at h
            · rename_i h63
              injection h with h
              injection h with h
              rw [← h, finishGlob_items]
              intro x hx
              rw [List.mem_singleton.1 hx]
              exact .inl (k.any _ hub (by simp [h63]))
            · generalize hst : ({ minLen := _, maxLen := _, pref := _ } : ParseSt) = st0 at h
              cases hpl : parseLoop (parseFuel body.length) body st0 with
              | timeout => rw [hpl] at h; cases h
              | panic => rw [hpl] at h; cases h
              | ok r =>
                rw [hpl] at h
                simp only [R.bind_ok] at h
                cases r with
                | error er => cases h
                | ok st =>
                  dsimp only at h
                  injection h with h
                  injection h with h
                  rw [← h, finishGlob_items]
                  have hin := loop_kinds k _ _ _ _ hpl hub (by rw [← hst]; intro x hx; cases hx)
                  dsimp only
                  intro x hx
                  unfold takeSuffix at hx
                  split at hx
                  · split at hx
                    · exact hin x (List.dropLast_subset _ hx)
                    · exact hin x (List.dropLast_subset _ hx)
                    · exact hin x (List.dropLast_subset _ hx)
                    · exact hin x hx
                  · exact hin x hx

/-! ## No panic -/

theorem noPan_kinds {a : Bool}
    (hl : ∀ x rest, L x → NoPan a rest → NoPan a (x :: rest))
    (hlist : ∀ l rest, NoPan a rest → NoPan a (.list l :: rest))
    (items : List Item) (h : ∀ x ∈ items, KindItem L x) : NoPan a items := by
  have many : ∀ (xs rest : List Item), (∀ x ∈ xs, L x) → NoPan a rest → NoPan a (xs ++ rest) := by
    intro xs rest hx hr
    induction xs with
    | nil => exact hr
    | cons x xs ih =>
      exact hl _ _ (hx x (by simp)) (ih fun y hy => hx y (by simp [hy]))
  induction items with
  | nil => exact .nil _
  | cons x items ih =>
    have hr := ih fun y hy => h y (by simp [hy])
    rcases h x (by simp) with hx | ⟨l, rfl⟩ | ⟨vals, mn, mx, rfl, hv⟩
    · exact hl _ _ hx hr
    · exact hlist _ _ hr
    · exact .group (fun v hm => many _ _ (hv v hm) hr) (fun _ => hr)

theorem matches_of_noPan {g : Glob} (h : NoPan false g.items) (s : Str) :
    ∃ b, g.matches s = .ok b := by
  unfold Glob.matches
  dsimp only
  repeat' split
  all_goals first | exact ⟨_, rfl⟩ | exact matchAll_safe h _

/-- Items other than stars. -/
def NoStar : Item → Prop
  | .str _ | .byte _ | .rune _ | .ranges _ | .any _ => True
  | _ => False

theorem literalItem_cases (s : Str) : (∃ b, literalItem s = .byte b) ∨
    (∃ r, literalItem s = .rune r ∧ decodeRune s = (r, s.length)) ∨ literalItem s = .str s := by
  unfold literalItem
  dsimp only
  split
  · rename_i h
    split
    · exact .inl ⟨_, rfl⟩
    · exact .inr (.inl ⟨_, rfl, by rw [← h]⟩)
  · exact .inr (.inr rfl)

theorem classItem_cases {rs : RunesRanges} {it : Item} (h : classItem rs = some it) :
    (∃ b, it = .byte b) ∨ it = .ranges rs ∨
    ∃ r, rs.ranges = [r] ∧ rs.ascii.count.1 = 0 ∧ r.first = r.last ∧ it = .rune r.first := by
  unfold classItem at h
  dsimp only at h
  split at h
  · cases h
  · split at h
    · cases h; exact .inl ⟨_, rfl⟩
    · split at h
      · split at h
        · rename_i r hr hc
          cases h
          exact .inr (.inr ⟨r, hr, hc.1, hc.2, rfl⟩)
        · cases h; exact .inr (.inl rfl)
      · cases h; exact .inr (.inl rfl)

theorem kind_noStar : Kind (fun s => (42 : UInt8) ∉ s) NoStar where
  left := by intro a t b h _ hm; exact h (by simp [hm])
  leftB := by
    intro a t b h _ hm
    simp only [List.mem_append, List.mem_cons, not_or, List.not_mem_nil, or_false] at h hm
    rcases hm with hm | hm
    · exact h.1 hm
    · exact h.2.1 hm
  right := by intro a t b h _ hm; exact h (by simp only [List.mem_append]; exact .inr hm)
  tail := by intro t b h _ hm; exact h (by simp [hm])
  empty := by simp
  flat := by intro x hx; cases x <;> simp_all [NoStar, groupItems]
  str := by intro s; trivial
  lit := by
    intro s _ _
    rcases literalItem_cases s with ⟨b, h⟩ | ⟨r, h, _⟩ | h <;> rw [h] <;> trivial
  cls := by
    intro _ body rs it _ _ _ h
    rcases classItem_cases h with ⟨b, rfl⟩ | rfl | ⟨r, _, _, _, rfl⟩ <;> trivial
  star := by intro s h hm; exact absurd hm h
  any := by intro s _ _; trivial
  merge := by
    intro x y z hx hy h
    cases x <;> cases y <;> simp_all [NoStar, mergeItem] <;> (rw [← h]; trivial)

/-- Items other than `?` and U+FFFD. -/
def NoAny : Item → Prop
  | .str _ | .byte _ | .ranges _ | .star _ => True
  | .rune r => r ≠ runeError
  | _ => False

/-- Valid text without U+FFFD, without `?`. -/
def NoAnyText (s : Str) : Prop := (∃ cs : List Char, s = utf8 cs ∧ ∀ c ∈ cs, c ≠ '�') ∧ (63 : UInt8) ∉ s

theorem NoAnyText.cut {a t : Str} {b : UInt8} (h : NoAnyText (a ++ b :: t)) (hb : b.toNat < 128) :
    NoAnyText a ∧ NoAnyText [b] ∧ NoAnyText t := by
  obtain ⟨⟨cs, e, hc⟩, hn⟩ := h
  have nc : isCont b.toNat = false := by
    simp [isCont]; omega
  obtain ⟨ps, qs, rfl, rfl, h2⟩ := utf8_split_boundary e.symm (by
    intro b' t' e'
    simp only [List.cons.injEq] at e'
    rw [← e'.1]; exact nc)
  obtain ⟨c, cs', rfl, hcb, ht⟩ : ∃ c cs', qs = c :: cs' ∧ utf8 [c] = [b] ∧ t = utf8 cs' := by
    cases qs with
    | nil => cases h2
    | cons c cs' =>
      have hc1 : c.toNat < 128 := by
        apply Classical.byContradiction
        intro hge
        have hbm : b ∈ utf8 [c] := by
          rw [show c :: cs' = [c] ++ cs' from rfl, utf8_append] at h2
          cases hx : utf8 [c] with
          | nil => exact absurd hx (utf8_cons_ne_nil _ _)
          | cons y ys =>
            rw [hx, List.cons_append] at h2
            injection h2 with h2 _
            rw [h2]; simp
        obtain ⟨d, hd, e⟩ := (mem_utf8_ascii hb [c]).1 hbm
        rw [List.mem_singleton.1 hd] at e
        omega
      refine ⟨c, cs', rfl, ?_, ?_⟩
      · have := utf8_ascii_cons hc1 (cs := [])
        rw [this]
        rw [utf8_ascii_cons hc1] at h2
        injection h2 with h2 _
        rw [h2]; rfl
      · rw [utf8_ascii_cons hc1] at h2
        injection h2
  refine ⟨⟨⟨ps, rfl, fun c hm => hc c (by simp [hm])⟩, fun hm => hn (by simp [hm])⟩,
    ⟨⟨[c], hcb.symm, ?_⟩, ?_⟩, ⟨⟨cs', ht, fun c hm => hc c (by simp [hm])⟩, fun hm => hn (by simp [hm])⟩⟩
  · intro d hd
    rw [List.mem_singleton.1 hd]
    exact hc c (by simp)
  · intro hm
    rw [List.mem_singleton.1 hm] at hn
    exact hn (by simp)

theorem NoAnyText.append {a t : Str} (h : NoAnyText a) (h' : NoAnyText t) : NoAnyText (a ++ t) := by
  obtain ⟨⟨cs, rfl, hc⟩, hn⟩ := h
  obtain ⟨⟨cs', rfl, hc'⟩, hn'⟩ := h'
  refine ⟨⟨cs ++ cs', (utf8_append _ _).symm, ?_⟩, ?_⟩
  · intro c hm
    rcases List.mem_append.1 hm with hm | hm
    · exact hc c hm
    · exact hc' c hm
  · intro hm
    rcases List.mem_append.1 hm with hm | hm
    · exact hn hm
    · exact hn' hm

theorem reads_start {cs : List Char} {es : List (Char × Char)} (h : Reads cs es) :
    ∀ e ∈ es, e.1 ≠ '�' := by
  induction h with
  | nil => simp
  | skip _ _ ih => exact ih
  | single _ h2 _ _ ih =>
    intro e he
    rcases List.mem_cons.1 he with rfl | he
    · exact h2
    · exact ih e he
  | trailing _ _ h2 =>
    intro e he
    rw [List.mem_singleton.1 he]; exact h2
  | range _ _ h2 _ _ ih =>
    intro e he
    rcases List.mem_cons.1 he with rfl | he
    · exact h2
    · exact ih e he

theorem classItem_rune {body : Str} {rs : RunesRanges} {r : Nat}
    (he : RunesRanges.expand (91 :: body ++ [93]) = some rs) (h : classItem rs = some (.rune r)) :
    r ≠ runeError := by
  rcases classItem_cases h with ⟨b, hb⟩ | hb | ⟨rr, h1, h2, h3, h4⟩
  · cases hb
  · cases hb
  · cases h4
    intro hff
    obtain ⟨cs, hcs⟩ := RunesRanges.rangeStr_go_chars body.length 0 body
    obtain ⟨es, hes⟩ := RunesRanges.reads_total cs
    rcases RunesRanges.expand_reads hcs hes with ⟨hgood, rs', e', hsem⟩ | ⟨_, hn⟩
    · rw [he] at e'
      cases e'
      have hs := hsem.sorted.1 rr (by rw [h1]; simp)
      have hff' : 127 < rr.first := hsem.wf rr (by rw [h1]; simp)
      have hc : rs.contains rr.first = true := by
        rw [RunesRanges.contains_of_ge rs (by omega)]
        exact (RunesRanges.containsUnicode_spec hsem.sorted _).2 ⟨rr, by rw [h1]; simp, Nat.le_refl _, hs⟩
      obtain ⟨e, hem, he1, he2⟩ := (hsem.mem _).1 hc
      -- the start of the range is a member too
      have hm : rs.contains e.1.toNat = true := (hsem.mem _).2 ⟨e, hem, Nat.le_refl _, (hgood e hem).1⟩
      have hne := RunesRanges.toNat_error (reads_start hes e hem)
      by_cases h127 : e.1.toNat ≤ 127
      · have hw := (hgood e hem).2
        unfold ClassElt.width at hw
        have : runeError = 0xFFFD := rfl
        rw [if_pos (by omega), if_neg (by omega)] at hw
        split at hw
        · cases hw
        · split at hw <;> cases hw
      · rw [RunesRanges.contains_of_ge rs (by omega)] at hm
        obtain ⟨r2, hr2, a1, a2⟩ := (RunesRanges.containsUnicode_spec hsem.sorted _).1 hm
        rw [h1, List.mem_singleton] at hr2
        subst hr2
        omega
    · rw [he] at hn; cases hn

/-- Single items other than classes. -/
def NotClass : Item → Prop
  | .str _ | .byte _ | .rune _ | .any _ | .star _ => True
  | _ => False

theorem kind_notClass : Kind (fun s => (91 : UInt8) ∉ s) NotClass where
  left := by intro a t b h _ hm; exact h (by simp [hm])
  leftB := by
    intro a t b h _ hm
    simp only [List.mem_append, List.mem_cons, not_or, List.not_mem_nil, or_false] at h hm
    rcases hm with hm | hm
    · exact h.1 hm
    · exact h.2.1 hm
  right := by intro a t b h _ hm; exact h (by simp only [List.mem_append]; exact .inr hm)
  tail := by intro t b h _ hm; exact h (by simp [hm])
  empty := by simp
  flat := by intro x hx; cases x <;> simp_all [NotClass, groupItems]
  str := by intro s; trivial
  lit := by
    intro s _ _
    rcases literalItem_cases s with ⟨b, h⟩ | ⟨r, h, _⟩ | h <;> rw [h] <;> trivial
  cls := by intro s _ _ _ h hm; exact absurd hm h
  star := by intro s _ _; trivial
  any := by intro s _ _; trivial
  merge := by
    intro x y z hx hy h
    cases x <;> cases y <;> simp_all [NotClass, mergeItem] <;> (rw [← h]; trivial)

theorem NotClass.noClass {x : Item} (h : NotClass x) : NoClass x := by
  cases x <;> first | exact h.elim | exact .flat (fun _ e => by cases e) (fun _ _ _ e => by cases e)

/-- A text without `[` has no class items. -/
theorem parse_noClass {s : Str} {g : Glob} (h : parseGlob s = .ok (.ok g)) (hs : (91 : UInt8) ∉ s) :
    ∀ x ∈ g.items, NoClass x := by
  intro x hx
  rcases parse_kinds kind_notClass h hs x hx with h1 | ⟨l, rfl⟩ | ⟨vals, mn, mx, rfl, h1⟩
  · exact h1.noClass
  · exact .flat (fun _ e => by cases e) (fun _ _ _ e => by cases e)
  · exact .group fun v hv y hy => (h1 v hv y hy).noClass

theorem not_bracket {g : List Char} (h : '[' ∉ g) : (91 : UInt8) ∉ utf8 g := by
  intro hm
  obtain ⟨c, hc, e⟩ := (mem_utf8_ascii (by decide) g).1 hm
  rw [Char.toNat_val_inj (c := c) (d := '[') (by rw [e]; rfl)] at hc
  exact h hc

/-- Texts on which the classes of a glob are exact. -/
theorem parse_clean {g : List Char} {G : Glob} (h : parseGlob (utf8 g) = .ok (.ok G)) {cs : List Char}
    (hcs : '[' ∉ g ∨ ∀ c ∈ cs, c.toNat ≠ 0xFFFD) : CleanSeq G.items cs := by
  rcases hcs with hg | hcs
  · exact .inr (parse_noClass h (not_bracket hg))
  · exact .inl hcs

theorem kind_noAny : Kind NoAnyText NoAny where
  left := fun h hb => (h.cut hb).1
  leftB := fun h hb => (h.cut hb).1.append (h.cut hb).2.1
  right := fun h hb => (h.cut hb).2.1.append (h.cut hb).2.2
  tail := fun h hb => (NoAnyText.cut (a := []) h hb).2.2
  empty := ⟨⟨[], rfl, by simp⟩, by simp⟩
  flat := by intro x hx; cases x <;> simp_all [NoAny, groupItems]
  str := by intro s; trivial
  lit := by
    rintro s ⟨⟨cs, rfl, hc⟩, _⟩ hne
    rcases literalItem_cases (utf8 cs) with ⟨b, h⟩ | ⟨r, h, hd⟩ | h <;> rw [h]
    · trivial
    · cases cs with
      | nil => exact absurd rfl hne
      | cons c cs =>
        rw [decodeRune_utf8_cons] at hd
        injection hd with hd _
        rw [← hd]
        exact RunesRanges.toNat_error (hc c (by simp))
    · trivial
  cls := by
    intro _ body rs it _ _ he h
    rcases classItem_cases h with ⟨b, rfl⟩ | rfl | ⟨r, _, _, _, rfl⟩
    · trivial
    · trivial
    · exact classItem_rune he h
  star := by intro s _ _; trivial
  any := by intro s h hm; exact absurd hm h.2
  merge := by
    intro x y z hx hy h
    cases x <;> cases y <;> simp_all [NoAny, mergeItem] <;> (rw [← h]; trivial)

end GoMatcher
