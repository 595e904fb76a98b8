import Verif.Model.Builder
import Verif.Proofs.Utf8

/-! # What the writers on a builder write -/

namespace GoMatcher

namespace Builder

theorem from_append (buf w : Str) : from_ (buf ++ w) buf.length = w := by
  simp [from_]

theorem writeBytes_eq (b : UInt8) (n : Nat) (buf : Builder) :
    buf.writeBytes b n = buf ++ List.replicate n b := by
  induction n generalizing buf with
  | zero => simp [writeBytes]
  | succ n ih => rw [writeBytes, ih]; simp [writeByte, List.replicate_succ]

end Builder

namespace Escape

theorem unescapeAt_eq (s : Str) (k i : Nat) (sb : Builder) (hk : s.length ≤ i + k) :
    unescapeAt s k i sb = sb ++ unescLoop (s.drop i) := by
  induction k using Nat.strongRecOn generalizing i sb with
  | _ k ih =>
  cases k with
  | zero =>
    rw [List.drop_eq_nil_of_le (by omega)]
    simp [unescapeAt, unescLoop]
  | succ k =>
    rw [unescapeAt]
    cases hc : s[i]? with
    | none =>
      rw [List.getElem?_eq_none_iff] at hc
      rw [List.drop_eq_nil_of_le hc]
      simp [unescLoop]
    | some c =>
      obtain ⟨hi, hc⟩ := List.getElem?_eq_some_iff.1 hc
      rw [List.drop_eq_getElem_cons hi, hc]
      dsimp only
      by_cases h37 : c = 37
      · rw [if_pos h37]
        subst h37
        by_cases hl : s.length < i + 3
        · rw [if_pos hl]
          have : (s.drop (i + 1)).length ≤ 1 := by simp; omega
          match hd : s.drop (i + 1), this with
          | [], _ => simp [unescLoop, Builder.writeStr]
          | [a], _ => simp [unescLoop, Builder.writeStr]
        · rw [if_neg hl]
          have h1 : i + 1 < s.length := by omega
          have h2 : i + 2 < s.length := by omega
          rw [List.drop_eq_getElem_cons h1, List.drop_eq_getElem_cons h2, unescLoop]
          have hp : isPercentEscape s i = (ishex s[i + 1] && ishex s[i + 2]) := by
            simp [isPercentEscape, h1, h2]
          rw [ih k (by omega) _ _ (by omega), hp]
          have ha : s.getD (i + 1) 0 = s[i + 1] := by simp [List.getD, h1]
          have hb : s.getD (i + 2) 0 = s[i + 2] := by simp [List.getD, h2]
          by_cases hx : (ishex s[i + 1] && ishex s[i + 2]) = true
          · simp only [hx, ha, hb]; simp [Builder.writeByte]
          · rw [Bool.not_eq_true] at hx
            have h3 : (s.drop (i + 1)).take 2 = [s[i + 1], s[i + 2]] := by
              rw [List.drop_eq_getElem_cons h1, List.drop_eq_getElem_cons h2]
              rfl
            simp only [hx]
            simp [Builder.writeStr, h3]
      · rw [if_neg h37]
        by_cases h43 : c = 43
        · rw [if_pos h43, ih k (by omega) _ _ (by omega)]
          subst h43
          simp [unescLoop, Builder.writeByte]
        · rw [if_neg h43, ih k (by omega) _ _ (by omega)]
          rw [unescLoop.eq_5 _ _ (by intros; simp_all) (by intros; simp_all) (by simp_all)]
          simp [Builder.writeByte]

theorem unescapeB_eq (s : Str) (first : Nat) (sb : Builder) :
    unescapeB s first sb = (unescape s first, sb ++ unescape s first) := by
  unfold unescapeB
  dsimp only
  rw [unescapeAt_eq _ _ _ _ (by omega), Builder.writeStr, List.append_assoc,
    ← unescape, Builder.from_append]

end Escape

namespace ASCIISet

theorem writeLoopB_eq (s : ASCIISet) (is : List UInt8) (start : UInt8) (buf : Builder) :
    s.writeLoopB is start buf = buf ++ s.writeLoop is start := by
  induction is generalizing start buf with
  | nil => simp only [writeLoopB, writeLoop]; split <;> simp_all [Builder.writeByte]
  | cons i is ih =>
    simp only [writeLoopB, writeLoop, ih]
    split
    · rfl
    · split
      · split <;> simp [Builder.writeByte]
      · rfl

theorem writeStringB_eq (s : ASCIISet) (buf : Builder) :
    s.writeStringB buf = buf ++ s.writeString := by
  unfold writeStringB writeString
  cases s.isEmpty <;> simp [writeLoopB_eq]

theorem writeAllLoopB_eq (s : ASCIISet) (is : List UInt8) (buf : Builder) :
    s.writeAllLoopB is buf = buf ++ is.filter s.contains := by
  induction is generalizing buf with
  | nil => simp [writeAllLoopB]
  | cons i is ih =>
    rw [writeAllLoopB, ih, List.filter_cons]
    split <;> simp_all [Builder.writeByte]

end ASCIISet

namespace RunesRanges

theorem writeRangesB_eq (l : List RuneRange) (buf : Builder) :
    writeRangesB l buf = buf ++ l.flatMap (fun r =>
      encodeRune r.first ++ (if r.first ≠ r.last then 0x2D :: encodeRune r.last else [])) := by
  induction l generalizing buf with
  | nil => simp [writeRangesB]
  | cons r l ih =>
    have h : encodeRune 0x2D = [0x2D] := by decide
    rw [writeRangesB, ih, List.flatMap_cons]
    split <;> simp [Builder.writeRune, h]

theorem writeStringB_eq (rs : RunesRanges) (buf : Builder) :
    rs.writeStringB buf = buf ++ rs.writeString := by
  have h1 : encodeRune 0x5B = [0x5B] := by decide
  have h2 : encodeRune 0x5D = [0x5D] := by decide
  unfold writeStringB writeString
  simp only [Builder.writeRune, ASCIISet.writeStringB_eq, writeRangesB_eq, h1, h2, List.append_assoc]

end RunesRanges

namespace Item

theorem writeValsB_eq (m : Int) (i : Nat) (l : List Str) (buf : Builder) :
    writeValsB m i l buf = buf ++ writeVals (decide (i > 0 ∨ m = 0)) l := by
  induction l generalizing i buf with
  | nil => simp [writeValsB, writeVals]
  | cons s l ih =>
    rw [writeValsB, ih, writeVals]
    have : decide (i + 1 > 0 ∨ m = 0) = true := by simp
    rw [this]
    by_cases h : i > 0 ∨ m = 0 <;> simp [h, Builder.writeByte, Builder.writeStr]

mutual
theorem writeStringB_eq : (it : Item) → (buf : Builder) →
    it.writeStringB buf = (it.writeString, buf ++ it.writeString)
  | .str s, buf => by simp [writeStringB, writeString, Builder.writeStr, Builder.from_]
  | .byte b, buf => by simp [writeStringB, writeString, Builder.writeByte, Builder.from_]
  | .rune r, buf => by simp [writeStringB, writeString, Builder.writeRune, Builder.from_]
  | .any n, buf => by simp [writeStringB, writeString, Builder.writeBytes_eq, Builder.from_]
  | .star n, buf => by
    simp [writeStringB, writeString, Builder.writeBytes_eq, Builder.writeByte, Builder.from_]
  | .ranges rs, buf => by
    simp [writeStringB, writeString, RunesRanges.writeStringB_eq, Builder.from_]
  | .list v, buf => by
    simp [writeStringB, writeString, writeValsB_eq, Builder.writeByte, Builder.from_]
  | .group vals a b, buf => by
    rw [writeStringB, writeString, writeAltsB_eq vals 0]
    simp [Builder.writeByte, Builder.from_]
  | .chain items a b, buf => by
    rw [writeStringB, writeString, writeItemsB_eq items]
    simp [Builder.from_]
theorem writeItemsB_eq : (l : List Item) → (buf : Builder) →
    writeItemsB l buf = buf ++ writeItems l
  | [], buf => by simp [writeItemsB, writeItems]
  | x :: xs, buf => by
    rw [writeItemsB, writeItems, writeItemsB_eq xs, writeStringB_eq x]; simp
theorem writeAltsB_eq : (l : List Item) → (i : Nat) → (buf : Builder) →
    writeAltsB i l buf = buf ++ writeAlts (decide (i > 0)) l
  | [], i, buf => by simp [writeAltsB, writeAlts]
  | x :: xs, i, buf => by
    rw [writeAltsB, writeAlts, writeAltsB_eq xs, writeStringB_eq x]
    have : decide (i + 1 > 0) = true := by simp
    rw [this]
    by_cases h : i > 0 <;> simp [h, Builder.writeByte]
end

end Item

theorem termTexts_cons₂ (t u : TTerm) (us : List TTerm) :
    termTexts (t :: u :: us) = b!"'" ++ t.text ++ b!"'" ++ b!"," ++ termTexts (u :: us) := rfl

theorem writeTermsB_succ (ts : List TTerm) (i : Nat) (buf : Builder) (h : ts ≠ []) :
    writeTermsB (i + 1) ts buf = buf ++ b!"," ++ termTexts ts := by
  induction ts generalizing i buf with
  | nil => exact absurd rfl h
  | cons t ts ih =>
    rw [writeTermsB]
    cases ts with
    | nil => simp [writeTermsB, termTexts, TTerm.writeStringB, TTerm.text, Builder.writeByte, Builder.writeStr]
    | cons u us =>
      rw [ih _ _ (by simp), termTexts_cons₂]
      simp [TTerm.writeStringB, TTerm.text, Builder.writeByte, Builder.writeStr]

theorem termsWriteB_eq (ts : List TTerm) (buf : Builder) :
    termsWriteB ts buf = buf ++ termsText ts := by
  unfold termsWriteB termsText
  cases ts with
  | nil => simp [writeTermsB, termTexts, Builder.writeStr]
  | cons t ts =>
    rw [writeTermsB]
    cases ts with
    | nil => simp [writeTermsB, termTexts, TTerm.writeStringB, TTerm.text, Builder.writeByte, Builder.writeStr]
    | cons u us =>
      rw [writeTermsB_succ _ _ _ (by simp), termTexts_cons₂]
      simp [TTerm.writeStringB, TTerm.text, Builder.writeByte, Builder.writeStr]

end GoMatcher
