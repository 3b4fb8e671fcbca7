import Verif.Proofs.PtbTrip
import Verif.Spec.Grown

/-!
# Reading and writing PTB text again
-/

namespace Lumberjack
namespace Ptb

open Bracketed
open Lumberjack.Tree

theorem before_after {c : Char} {s a : Str} (h : after c s = some a) : s = before c s ++ c :: a := by
  induction s generalizing a with
  | nil => simp [after] at h
  | cons x s ih =>
    by_cases hx : x = c
    · subst hx
      simp [after, before] at h ⊢
      exact h
    · have : after c s = some a := by
        unfold after at h ⊢
        simpa [hx, Ne.symm hx] using h
      have e : before c (x :: s) = x :: before c s := by simp [before, hx]
      rw [e, List.cons_append, ← ih this]

theorem before_none {c : Char} {s : Str} (h : after c s = none) : before c s = s := by
  unfold after at h
  split at h
  · simp at h
  · exact before_of_not_mem ‹_›

/-- The bracketing written for what was read. -/
theorem forest_brackets {b : Brackets} : ∀ {k : Nat}, Wordy b → (b.forest .ptb k).brackets .ptb = b.grown := by
  induction b with
  | nil => intro k _; rfl
  | leaf tag w r ih =>
    rintro k ⟨h1, h2, h3⟩
    have e : Bracketed.escape (before '-' tag) = before '-' tag := by
      rcases word_sub h1 (v := before '-' tag) fun c hc => (mem_before hc).1 with e | e
      · rw [e]; rfl
      · exact escape_word e
    simp only [Brackets.forest, Forest.brackets, readTag, writeTag, escape_word h2, e, ih h3, Brackets.grown,
      List.append_nil]
  | node tag ks r ihk ih =>
    rintro k ⟨h1, h2, h3, h4⟩
    simp only [Brackets.forest, Forest.brackets, readTag, annotationOf_annotated, ihk h3, ih h4, Brackets.grown]
    congr 1
    unfold writeTag Brackets.doubled
    cases h : after '-' tag with
    | none => simp [before_none h]
    | some a => simp

theorem setTop_brackets (F : Forest) (e : Option Str) : (F.setTop e).brackets .ptb = F.brackets .ptb := by
  cases F <;> rfl

theorem grown_ne_nil {b : Brackets} (h : b ≠ .nil) : b.grown ≠ .nil := by
  cases b <;> simp_all [Brackets.grown]

theorem grown_single {b : Brackets} (h : b.Single) : b.grown.Single := by
  cases b <;> simp_all [Brackets.grown, Brackets.Single]

theorem doubled_word {tag : Str} (h : Word tag) : Word (Brackets.doubled tag) := by
  unfold Brackets.doubled
  cases ha : after '-' tag with
  | none => exact h
  | some a =>
    refine ⟨by simp, fun c hc => ?_⟩
    have e := before_after ha
    rw [List.mem_append, List.mem_cons, List.mem_cons] at hc
    have : c ∈ tag := by
      rw [e, List.mem_append, List.mem_cons]
      tauto
    exact h.2 c this

/-- Tags of inner nodes and all words are words, tags of words are words or empty. -/
def Almost : Brackets → Prop
  | .nil => True
  | .leaf tag w r => (tag = [] ∨ Word tag) ∧ Word w ∧ Almost r
  | .node tag k r => Word tag ∧ k ≠ .nil ∧ Almost k ∧ Almost r

/-- Some word has no tag. -/
def Untagged : Brackets → Prop
  | .nil => False
  | .leaf tag _ r => tag = [] ∨ Untagged r
  | .node _ k r => Untagged k ∨ Untagged r

theorem grown_almost {b : Brackets} (h : Wordy b) : Almost b.grown := by
  induction b with
  | nil => trivial
  | leaf tag w r ih => exact ⟨word_sub h.1 fun c hc => (mem_before hc).1, h.2.1, ih h.2.2⟩
  | node tag k r ihk ih => exact ⟨doubled_word h.1, grown_ne_nil h.2.1, ihk h.2.2.1, ih h.2.2.2⟩

theorem before_eq_nil {c : Char} {s : Str} (hs : s ≠ []) : before c s = [] ↔ s.head? = some c := by
  cases s with
  | nil => exact absurd rfl hs
  | cons x s => by_cases h : x = c <;> simp [before, h]

theorem grown_wordy {b : Brackets} (h : Wordy b) (hn : b.NoDashFirst) : Wordy b.grown ∧ b.grown.NoDashFirst := by
  induction b with
  | nil => exact ⟨trivial, trivial⟩
  | leaf tag w r ih =>
    obtain ⟨i1, i2⟩ := ih h.2.2 hn.2
    have hne : before '-' tag ≠ [] := fun e => hn.1 ((before_eq_nil h.1.1).1 e)
    refine ⟨⟨(word_sub h.1 fun c hc => (mem_before hc).1).resolve_left hne, h.2.1, i1⟩, ?_, i2⟩
    intro e
    cases hb : before '-' tag with
    | nil => exact hne hb
    | cons x l =>
      rw [hb] at e
      simp only [List.head?_cons, Option.some.injEq] at e
      have : x ∈ before '-' tag := by rw [hb]; exact List.mem_cons_self ..
      exact (mem_before this).2 e
  | node tag k r ihk ih =>
    obtain ⟨k1, k2⟩ := ihk h.2.2.1 hn.1
    obtain ⟨i1, i2⟩ := ih h.2.2.2 hn.2
    exact ⟨⟨doubled_word h.1, grown_ne_nil h.2.1, k1, i1⟩, k2, i2⟩

theorem grown_untagged {b : Brackets} (h : Wordy b) (hn : ¬ b.NoDashFirst) : Untagged b.grown := by
  induction b with
  | nil => exact absurd trivial hn
  | leaf tag w r ih =>
    by_cases he : tag.head? = some '-'
    · exact .inl ((before_eq_nil h.1.1).2 he)
    · exact .inr (ih h.2.2 fun hr => hn ⟨he, hr⟩)
  | node tag k r ihk ih =>
    by_cases hk : k.NoDashFirst
    · exact .inr (ih h.2.2.2 fun hr => hn ⟨hk, hr⟩)
    · exact .inl (ihk h.2.2.1 hk)

/-- Somewhere an opening bracket, a word and a closing bracket follow each other. -/
def lone : List Tok → Bool
  | .op :: .word _ :: .cl :: _ => true
  | _ :: r => lone r
  | [] => false

theorem lone_cons {a : Tok} {r : List Tok} (h : lone r = true) : lone (a :: r) = true := by
  unfold lone
  split
  · rfl
  · rename_i e; cases e; exact h
  · simp_all

theorem lone_append {l r : List Tok} (h : lone r = true) : lone (l ++ r) = true := by
  induction l with
  | nil => exact h
  | cons a l ih => exact lone_cons ih

theorem lone_toks {b : Brackets} : ∀ {z : List Tok}, b.Full → lone (toks b ++ z) = lone z := by
  induction b with
  | nil => intro z _; rfl
  | leaf tag w r ih => intro z h; simp [toks, lone, ih (z := z) h]
  | node tag k r ihk ih =>
    rintro z ⟨h1, h2, h3⟩
    have hk := ihk (z := .cl :: (toks r ++ z)) h2
    have : lone (.cl :: (toks r ++ z)) = lone z := by rw [lone]; exact ih h3; simp
    rw [this] at hk
    simp only [toks, List.cons_append, List.append_assoc]
    cases k with
    | nil => exact absurd rfl h1
    | leaf a b c => simp only [toks, List.cons_append] at hk ⊢; simpa [lone] using hk
    | node a b c => simp only [toks, List.cons_append] at hk ⊢; simpa [lone] using hk

theorem stops_texts {b : Brackets} (hb : b ≠ .nil) (z : Str) :
    Stops ((b.text [' ']).flatMap ([' '] ++ ·) ++ z) := by
  cases b with
  | nil => exact absurd rfl hb
  | leaf a w r => intro c hc; simp [Brackets.text] at hc; subst hc; decide
  | node a k r => intro c hc; simp [Brackets.text] at hc; subst hc; decide

theorem lone_text {b : Brackets} : ∀ {a z : Str}, Space a → Almost b →
    (Untagged b ∨ lone (tokenize z) = true) → lone (tokenize ((b.text [' ']).flatMap (a ++ ·) ++ z)) = true := by
  induction b with
  | nil => intro a z _ _ h; simpa [Brackets.text] using h.resolve_left id
  | leaf tag w r ih =>
    rintro a z ha ⟨h1, h2, h3⟩ h
    have hsp : Space [' '] := by simp [Space]
    have e : ((Brackets.leaf tag w r).text [' ']).flatMap (a ++ ·) ++ z =
        a ++ ('(' :: (tag ++ ([' '] ++ (w ++ (')' :: ((r.text [' ']).flatMap (a ++ ·) ++ z)))))) := by
      simp [Brackets.text]
    rw [e, tokenize_space ha, tokenize_op]
    rcases h1 with rfl | h1
    · rw [List.nil_append, tokenize_space hsp, tokenize_word h2 (stops_cl _), tokenize_cl]
      rfl
    · rw [tokenize_word h1 (by intro c hc; simp at hc; subst hc; decide), tokenize_space hsp,
        tokenize_word h2 (stops_cl _), tokenize_cl]
      have := ih (z := z) ha h3 (by
        rcases h with (rfl | h) | h
        · exact absurd rfl h1.1
        · exact .inl h
        · exact .inr h)
      exact lone_cons (lone_cons (lone_cons (lone_cons this)))
  | node tag k r ihk ih =>
    rintro a z ha ⟨h1, h2, h3, h4⟩ h
    have hsp : Space [' '] := by simp [Space]
    have e : ((Brackets.node tag k r).text [' ']).flatMap (a ++ ·) ++ z =
        a ++ ('(' :: (tag ++ ((k.text [' ']).flatMap ([' '] ++ ·) ++ (')' :: ((r.text [' ']).flatMap (a ++ ·) ++ z))))) := by
      simp [Brackets.text, intercalate_cons]
    rw [e, tokenize_space ha, tokenize_op, tokenize_word h1 (stops_texts h2 _)]
    refine lone_cons (lone_cons (ihk hsp h3 ?_))
    rcases h with (h | h) | h
    · exact .inl h
    · right; rw [tokenize_cl]; exact lone_cons (ih ha h4 (.inl h))
    · right; rw [tokenize_cl]; exact lone_cons (ih ha h4 (.inr h))

/-- Text in which a word has no tag is not read. -/
theorem untagged_unread {b : Brackets} {s : Str} (h : Almost b) (hu : Untagged b) (hs : b.text [' '] = [s]) :
    ¬ ∃ b', b'.Single ∧ Reads s b' := by
  rintro ⟨b', _, hr⟩
  obtain ⟨h1, h2⟩ := reads_toks hr []
  have h3 := lone_text (a := []) (z := []) (by simp [Space]) h (.inl hu)
  rw [hs] at h3
  simp only [List.flatMap_cons, List.nil_append, List.flatMap_nil, List.append_nil] at h1 h3
  rw [h1] at h3
  have := lone_toks (z := tokenize []) h2
  rw [this] at h3
  simp [tokenize, lone] at h3

end Ptb
end Lumberjack
