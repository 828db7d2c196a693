import Verif.Model.CaptureParse
import Verif.Spec.CapturePattern
import Verif.Proofs.Lexer

/-!
# Reading a pattern with the capture feature
-/

namespace Pire
namespace Capture

open Spec Lex

variable {F : List Feature} {fl : Flavor}

theorem lexC_same {a b : List Nat} (h : Same a b) : lexC F a = lexC F b := by
  unfold lexC doLexC
  rw [h.getChar]

/-- When the capture feature does not return a token, the others read it. -/
theorem lexC_pass {s : List Nat} {c : Nat} {s1 : List Nat} {lz : Option Bool} (hg : getChar s = .ok (c, s1)) (hc : c ≠ End)
    (hp : (if accepts c then captureLex (c :: s1) else Res.ok (none, none, c :: s1)) = .ok (none, lz, c :: s1)) {t : Tok} {r : List Nat}
    (hl : lex F s = .ok (some (t, r))) : lexC F s = .ok (some (t, lz, r)) := by
  have e : doLexC F s = (doLex F s >>= fun x => .ok (x.map fun x => (x.1, lz, x.2))) := by
    rw [doLex_eq hg hc]
    unfold doLexC
    rw [hg, ok_bind]
    dsimp only
    rw [ungetChar, if_neg hc]
    change (if c = End then _ else _) = _
    rw [if_neg hc]
    change ((if accepts c then captureLex (c :: s1) else Res.ok (none, none, c :: s1)) >>= _) = _
    rw [hp, ok_bind]
    dsimp only
    change ((F.findSome? fun f => f.lex c (c :: s1)).getD (lexBuiltin (c :: s1)) >>= _) = _
    cases (F.findSome? fun f => f.lex c (c :: s1)).getD (lexBuiltin (c :: s1)) with
    | ok x => rfl
    | throws => rfl
    | bad => rfl
  unfold lex at hl
  unfold lexC
  rw [e]
  cases hd : doLex F s with
  | throws => rw [hd] at hl; cases hl
  | bad => rw [hd] at hl; cases hl
  | ok x =>
    rw [hd, ok_bind] at hl
    rw [ok_bind, ok_bind]
    match x with
    | none => cases hl
    | some (.letters cs neg, r') =>
      dsimp only at hl
      simp only [Option.map_some]
      cases ha : alterAll F cs neg with
      | throws => rw [ha] at hl; cases hl
      | bad => rw [ha] at hl; cases hl
      | ok y =>
        obtain ⟨cs', neg'⟩ := y
        rw [ha, ok_bind] at hl
        rw [ok_bind]
        dsimp only at hl ⊢
        split at hl
        · cases hl
        · rename_i hn
          rw [if_neg hn]
          injection hl with hl; injection hl with hl; injection hl with h1 h2
          rw [h1, h2]
    | some (.count lo hi, r') => injection hl with hl; injection hl with hl; injection hl with h1 h2; rw [← h1, ← h2]; rfl
    | some (.dot, r') => injection hl with hl; injection hl with hl; injection hl with h1 h2; rw [← h1, ← h2]; rfl
    | some (.opn, r') => injection hl with hl; injection hl with hl; injection hl with h1 h2; rw [← h1, ← h2]; rfl
    | some (.cls, r') => injection hl with hl; injection hl with hl; injection hl with h1 h2; rw [← h1, ← h2]; rfl
    | some (.bar, r') => injection hl with hl; injection hl with hl; injection hl with h1 h2; rw [← h1, ← h2]; rfl
    | some (.amp, r') => injection hl with hl; injection hl with hl; injection hl with h1 h2; rw [← h1, ← h2]; rfl
    | some (.tilde, r') => injection hl with hl; injection hl with hl; injection hl with h1 h2; rw [← h1, ← h2]; rfl
    | some (.bol, r') => injection hl with hl; injection hl with hl; injection hl with h1 h2; rw [← h1, ← h2]; rfl
    | some (.eol, r') => injection hl with hl; injection hl with hl; injection hl with h1 h2; rw [← h1, ← h2]; rfl

/-- When the capture feature returns a token. -/
theorem lexC_take {s : List Nat} {c : Nat} {lz : Option Bool} (h92 : c ≠ 92) (hc : c ≠ End) (ha : accepts c = true) {t : Tok} {r : List Nat}
    (hp : captureLex (c :: s) = .ok (some t, lz, r)) (ht : ∀ cs neg, t ≠ .letters cs neg) : lexC F (c :: s) = .ok (some (t, lz, r)) := by
  have e : doLexC F (c :: s) = .ok (some (t, lz, r)) := by
    unfold doLexC
    rw [getChar_plain h92, ok_bind]
    dsimp only
    rw [ungetChar, if_neg hc]
    change (if c = End then _ else _) = _
    rw [if_neg hc]
    change ((if accepts c then captureLex (c :: s) else Res.ok (none, none, c :: s)) >>= _) = _
    rw [if_pos ha, hp, ok_bind]
  unfold lexC
  rw [e, ok_bind]
  cases t with
  | letters cs neg => exact absurd rfl (ht cs neg)
  | _ => rfl

theorem accepts_false {c : Nat} (h : c ≠ 40 ∧ c ≠ 43 ∧ c ≠ 42 ∧ c ≠ 63 ∧ c ≠ 123) : accepts c = false := by
  unfold accepts
  simp [h]

/-- The first character of a piece of text that is not a repetition. -/
theorem written_first {t : List Nat} {tok : Tok} (h : Written fl t tok) (hn : ∀ lo hi, tok ≠ .count lo hi) (r : List Nat) :
    (t = [40] ∧ tok = .opn) ∨ ∃ c s1, getChar (t ++ r) = .ok (c, s1) ∧ c ≠ End ∧ accepts c = false := by
  have low : ∀ c, c < 0xF000 → c ≠ 92 → (c ≠ 40 ∧ c ≠ 43 ∧ c ≠ 42 ∧ c ≠ 63 ∧ c ≠ 123) → ∀ s, ∃ c' s1, getChar (c :: s) = .ok (c', s1) ∧ c' ≠ End ∧ accepts c' = false :=
    fun c h1 h2 h3 s => ⟨c, s, getChar_plain h2, by simp only [End]; omega, accepts_false h3⟩
  have quot : ∀ c, c < 255 → ∀ s, ∃ c' s1, getChar (92 :: c :: s) = .ok (c', s1) ∧ c' ≠ End ∧ accepts c' = false :=
    fun c h s => ⟨0xF000 + c, s, getChar_quoted (by omega), by simp only [End]; omega, accepts_false ⟨by omega, by omega, by omega, by omega, by omega⟩⟩
  cases h with
  | @plain c hc hu =>
    refine .inr ⟨c, r, getChar_plain ?_, usable_ne_ctl (d := 255) hu (by omega), accepts_false ⟨?_, ?_, ?_, ?_, ?_⟩⟩ <;>
      (rintro rfl; exact hc (by simp [Flavor.special]))
  | @quoted c hc =>
    refine .inr (quot c ?_ _)
    simp only [Flavor.quotable, Flavor.special, List.mem_append] at hc
    rcases hc with (hc | hc) | hc
    · simp only [List.mem_cons, List.not_mem_nil, or_false] at hc; omega
    · split at hc
      · simp only [List.mem_cons, List.not_mem_nil, or_false] at hc; omega
      · cases hc
    · simp only [List.mem_cons, List.not_mem_nil, or_false] at hc; omega
  | code h _ =>
    cases h with
    | two _ _ => exact .inr (quot _ (by omega) _)
    | braces _ _ _ => exact .inr (quot _ (by omega) _)
  | cls h =>
    have h := charClass_low h
    simp only [List.mem_cons, List.not_mem_nil, or_false] at h
    exact .inr (quot _ (by omega) _)
  | notCls h =>
    have h := charClass_capital h
    simp only [List.mem_cons, List.not_mem_nil, or_false] at h
    exact .inr (quot _ (by omega) _)
  | opn => exact .inl ⟨rfl, rfl⟩
  | exactly _ _ _ => exact absurd rfl (hn _ _)
  | atLeast _ _ _ => exact absurd rfl (hn _ _)
  | between _ _ _ _ _ _ => exact absurd rfl (hn _ _)
  | star => exact absurd rfl (hn _ _)
  | plus => exact absurd rfl (hn _ _)
  | opt => exact absurd rfl (hn _ _)
  | _ => exact .inr (low _ (by omega) (by omega) (by omega) _)

/-- A repetition in braces starts with a digit. -/
theorem braces_digit {t : List Nat} {lo : Nat} {hi : Option Nat} (h : Written fl (123 :: t) (.count lo hi)) : ∃ d t', t = d :: t' ∧ d ≠ 63 := by
  have key : ∀ {ds : List Nat} {n : Nat}, Decimal ds n → ds ≠ [] → ∀ r, ∃ d t', ds ++ r = d :: t' ∧ d ≠ 63 := by
    intro ds n hd hne r
    cases ds with
    | nil => exact absurd rfl hne
    | cons d ds =>
      refine ⟨d, ds ++ r, rfl, ?_⟩
      have := (decimal_spec hd).1 d (by simp)
      omega
  cases h with
  | exactly h1 h2 _ => exact key h1 h2 _
  | atLeast h1 h2 _ => exact key h1 h2 _
  | between h1 h2 _ _ _ _ => exact key h1 h2 _

/-- A repetition of one character. -/
theorem written_one {c lo : Nat} {hi : Option Nat} (h : Written fl [c] (.count lo hi)) :
    (c = 42 ∧ lo = 0 ∧ hi = none) ∨ (c = 43 ∧ lo = 1 ∧ hi = none) ∨ (c = 63 ∧ lo = 0 ∧ hi = some 1) := by
  generalize hs : [c] = s at h
  generalize ht : Tok.count lo hi = t at h
  cases h <;> simp_all

theorem cpattern_tame {s : List Nat} {ts : List Tok} {lz : List Bool} (h : CPattern fl s ts lz) : Tame s := by
  cases h with
  | nil => exact .nil
  | other h _ _ => exact (written_tame h _).1
  | braces h _ => exact (written_tame h _).1
  | greedy h _ _ => exact (written_tame h _).1
  | lazy h _ => exact (written_tame h _).1

theorem cpattern_length {s : List Nat} {ts : List Tok} {lz : List Bool} (h : CPattern fl s ts lz) : ts.length ≤ s.length := by
  induction h with
  | nil => simp
  | @other t tok s ts lz h _ _ ih =>
    have := (written_tame h []).2
    have : t.length ≠ 0 := by simpa using this
    simp; omega
  | braces _ _ ih => simp; omega
  | greedy _ _ _ ih => simp; omega
  | lazy _ _ ih => simp; omega

theorem captureLex_greedy {c lo : Nat} {hi : Option Nat} (h : Written fl [c] (.count lo hi)) {s : List Nat} (hs : s.head? ≠ some 63) :
    captureLex (c :: s) = .ok (some (.count lo hi), some false, s) := by
  have hp : peekChar s ≠ 63 := by
    cases s with
    | nil => simp [peekChar, End]
    | cons d s => simpa [peekChar] using hs
  rcases written_one h with ⟨rfl, rfl, rfl⟩ | ⟨rfl, rfl, rfl⟩ | ⟨rfl, rfl, rfl⟩ <;>
  · unfold captureLex
    rw [getChar_plain (by decide), ok_bind]
    dsimp only
    rw [if_pos (by decide), if_neg hp, ok_bind]
    rfl

theorem captureLex_lazy {c lo : Nat} {hi : Option Nat} (h : Written fl [c] (.count lo hi)) (s : List Nat) :
    captureLex (c :: 63 :: s) = .ok (some (.count lo hi), some true, s) := by
  rcases written_one h with ⟨rfl, rfl, rfl⟩ | ⟨rfl, rfl, rfl⟩ | ⟨rfl, rfl, rfl⟩ <;>
  · unfold captureLex
    rw [getChar_plain (by decide), ok_bind]
    dsimp only
    rw [if_pos (by decide), if_pos (show peekChar (63 :: s) = 63 from rfl), getChar_plain (by decide)]
    rfl

theorem cpattern_tokens (hi : Implements F fl) {s : List Nat} {ts : List Tok} {lz : List Bool} (h : CPattern fl s ts lz) :
    ∀ (fuel : Nat) (s' : List Nat), ts.length < fuel → Same s' s → tokensC F fuel s' = .ok (ts, lz) := by
  have step : ∀ {s : List Nat} {tok : Tok} {o : Option Bool} {r' r : List Nat} {ts : List Tok} {lz : List Bool} {fuel : Nat} {s' : List Nat},
      lexC F s = .ok (some (tok, o, r')) → Same s' s → (tok :: ts).length < fuel →
      (∀ (fuel : Nat) (s' : List Nat), ts.length < fuel → Same s' r → tokensC F fuel s' = .ok (ts, lz)) → Same r' r →
      tokensC F fuel s' = .ok (tok :: ts, o.toList ++ lz) := by
    intro s tok o r' r ts lz fuel s' e2 hs hf ih e1
    obtain ⟨fuel, rfl⟩ := Nat.exists_eq_succ_of_ne_zero (show fuel ≠ 0 by omega)
    rw [Nat.succ_eq_add_one, tokensC, lexC_same hs, e2, ok_bind]
    dsimp only
    rw [ih fuel r' (by simp at hf; omega) e1]
    rfl
  induction h with
  | nil =>
    intro fuel s' hf hs
    obtain ⟨fuel, rfl⟩ := Nat.exists_eq_succ_of_ne_zero (show fuel ≠ 0 by omega)
    rw [Nat.succ_eq_add_one, tokensC, lexC_same hs]
    rfl
  | @other t tok s ts lz h hn hp ih =>
    intro fuel s' hf hs
    rcases written_first h hn s with ⟨rfl, rfl⟩ | ⟨c, s1, hg, hc, ha⟩
    · exact step (o := Option.none) (lexC_take (by decide) (by decide) (by decide) (t := .opn) (r := s) rfl (by simp)) hs hf ih (.refl s)
    · obtain ⟨r', e1, e2⟩ := written_lex hi h (cpattern_tame hp)
      exact step (o := Option.none) (lexC_pass hg hc (by rw [ha]; rfl) e2) hs hf ih e1
  | @braces t lo hi' s ts lz h hp ih =>
    intro fuel s' hf hs
    obtain ⟨r', e1, e2⟩ := written_lex hi h (cpattern_tame hp)
    obtain ⟨d, t', rfl, hd⟩ := braces_digit h
    refine step (o := some false) (lexC_pass (c := 123) (s1 := d :: t' ++ s) (getChar_plain (by decide)) (by decide) ?_ e2) hs hf ih e1
    rw [if_pos (by decide)]
    unfold captureLex
    rw [getChar_plain (by decide), ok_bind]
    dsimp only
    rw [if_pos (by decide), if_neg (by exact hd), ok_bind]
    rfl
  | @greedy c lo hi' s ts lz h hq hp ih =>
    intro fuel s' hf hs
    have hc : c = 42 ∨ c = 43 ∨ c = 63 := by have := written_one h; omega
    refine step (o := some false) (lexC_take ?_ ?_ ?_ (captureLex_greedy h hq) (by simp)) hs hf ih (.refl s) <;>
      (rcases hc with rfl | rfl | rfl <;> decide)
  | @lazy c lo hi' s ts lz h hp ih =>
    intro fuel s' hf hs
    have hc : c = 42 ∨ c = 43 ∨ c = 63 := by have := written_one h; omega
    refine step (o := some true) (lexC_take ?_ ?_ ?_ (captureLex_lazy h s) (by simp)) hs hf ih (.refl s) <;>
      (rcases hc with rfl | rfl | rfl <;> decide)

/-! ### Repetitions -/

/-- A repetition. -/
def isCount : Tok → Bool
  | .count _ _ => true
  | _ => false

theorem cpattern_counts {s : List Nat} {ts : List Tok} {lz : List Bool} (h : CPattern fl s ts lz) : ts.countP isCount = lz.length := by
  induction h with
  | nil => rfl
  | @other t tok s ts lz _ hn _ ih =>
    rw [List.countP_cons_of_neg, ih]
    cases tok <;> simp_all [isCount]
  | braces _ _ ih => rw [List.countP_cons_of_pos (by rfl), ih]; rfl
  | greedy _ _ _ ih => rw [List.countP_cons_of_pos (by rfl), ih]; rfl
  | lazy _ _ ih => rw [List.countP_cons_of_pos (by rfl), ih]; rfl

mutual
theorem Alt.spell_counts (a : Alt) : a.spell.countP isCount = a.counts := by
  match a with
  | .one c => rw [Alt.spell, Alt.counts, Conj.spell_counts c]
  | .or a c => rw [Alt.spell, Alt.counts, List.countP_append, List.countP_cons_of_neg (by simp [isCount]), Alt.spell_counts a, Conj.spell_counts c]
theorem Conj.spell_counts (a : Conj) : a.spell.countP isCount = a.counts := by
  match a with
  | .one c => rw [Conj.spell, Conj.counts, Neg.spell_counts c]
  | .and a c => rw [Conj.spell, Conj.counts, List.countP_append, List.countP_cons_of_neg (by simp [isCount]), Conj.spell_counts a, Neg.spell_counts c]
theorem Neg.spell_counts (a : Neg) : a.spell.countP isCount = a.counts := by
  match a with
  | .one c => rw [Neg.spell, Neg.counts, Cat.spell_counts c]
  | .not c => rw [Neg.spell, Neg.counts, List.countP_cons_of_neg (by simp [isCount]), Cat.spell_counts c]
theorem Cat.spell_counts (a : Cat) : a.spell.countP isCount = a.counts := by
  match a with
  | .nil => rw [Cat.spell, Cat.counts]; rfl
  | .snoc c i => rw [Cat.spell, Cat.counts, List.countP_append, Cat.spell_counts c, Iter.spell_counts i]
theorem Iter.spell_counts (a : Iter) : a.spell.countP isCount = a.counts := by
  match a with
  | .one c => rw [Iter.spell, Iter.counts, Term.spell_counts c]
  | .rep t lo hi => rw [Iter.spell, Iter.counts, List.countP_append, Term.spell_counts t]; rfl
theorem Term.spell_counts (a : Term) : a.spell.countP isCount = a.counts := by
  match a with
  | .letters _ _ => rw [Term.spell, Term.counts]; rfl
  | .dot => rw [Term.spell, Term.counts]; rfl
  | .bol => rw [Term.spell, Term.counts]; rfl
  | .eol => rw [Term.spell, Term.counts]; rfl
  | .group a =>
    rw [Term.spell, Term.counts, List.countP_cons_of_neg (by simp [isCount]), List.countP_append, Alt.spell_counts a]
    rfl
end

end Capture
end Pire
