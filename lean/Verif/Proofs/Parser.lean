import Verif.Model.Parser

/-!
# The parser accepts exactly what the grammar spells
-/

namespace Pire.Parse

open Pire.Spec Pire.Lex

theorem foldlM_append_some {α β : Type} {g : β → α → Option β} {l l' : List α} {b c : β} (h : l.foldlM g b = some c) :
    (l ++ l').foldlM g b = l'.foldlM g c := by
  rw [List.foldlM_append, h]; rfl

/-! ### Completeness -/

/-- The frame after an iteration. -/
def Frame.iter (f : Frame) : Iter → Frame
  | .one t => f.term t
  | .rep t lo hi => { f with cat := .snoc f.closeTerm (.rep t lo hi), last := none }

theorem Frame.closeTerm_term (f : Frame) (t : Term) : (f.term t).closeTerm = .snoc f.closeTerm (.one t) := rfl

theorem Frame.closeTerm_iter (f : Frame) (i : Iter) : (f.iter i).closeTerm = .snoc f.closeTerm i := by
  cases i <;> rfl

theorem Frame.iter_alt (f : Frame) (i : Iter) : (f.iter i).alt = f.alt ∧ (f.iter i).conj = f.conj ∧ (f.iter i).neg = f.neg := by
  cases i <;> exact ⟨rfl, rfl, rfl⟩

/-- The negation reduced so far. -/
def Frame.closeNeg (f : Frame) : Neg := if f.neg then .not f.closeTerm else .one f.closeTerm

mutual
theorem run_alt (a : Alt) (out : List Frame) :
    ∃ g, a.spell.foldlM step (Frame.new, out) = some (g, out) ∧ g.closeAlt = a := by
  match a with
  | .one c =>
    obtain ⟨g, h1, h2, h3⟩ := run_conj c Frame.new out rfl rfl rfl rfl
    refine ⟨g, by rw [Alt.spell]; exact h1, ?_⟩
    unfold Frame.closeAlt
    rw [h3, h2]; rfl
  | .or a c =>
    obtain ⟨g, h1, h2⟩ := run_alt a out
    obtain ⟨g', h1', h2', h3'⟩ := run_conj c ⟨some g.closeAlt, none, false, .nil, none⟩ out rfl rfl rfl rfl
    refine ⟨g', ?_, ?_⟩
    · rw [Alt.spell, foldlM_append_some h1]; exact h1'
    · unfold Frame.closeAlt
      rw [h3', h2']
      dsimp only
      rw [h2]
theorem run_conj (c : Conj) (f : Frame) (out : List Frame) (h : f.conj = none) (hn : f.neg = false) (hc : f.cat = .nil) (hl : f.last = none) :
    ∃ g, c.spell.foldlM step (f, out) = some (g, out) ∧ g.closeConj = c ∧ g.alt = f.alt := by
  match c with
  | .one n =>
    obtain ⟨g, h1, h2, h3, h4⟩ := run_neg n f out hn hc hl
    refine ⟨g, by rw [Conj.spell]; exact h1, ?_, h3⟩
    unfold Frame.closeConj
    rw [h4, h]
    change Conj.one g.closeNeg = _
    rw [h2]
  | .and c n =>
    obtain ⟨g, h1, h2, h3⟩ := run_conj c f out h hn hc hl
    obtain ⟨g', h1', h2', h3', h4'⟩ := run_neg n ⟨g.alt, some g.closeConj, false, .nil, none⟩ out rfl rfl rfl
    refine ⟨g', ?_, ?_, h3'.trans h3⟩
    · rw [Conj.spell, foldlM_append_some h1]; exact h1'
    · unfold Frame.closeConj
      rw [h4']
      change Conj.and g.closeConj g'.closeNeg = _
      rw [h2, h2']
theorem run_neg (n : Neg) (f : Frame) (out : List Frame) (hn : f.neg = false) (hc : f.cat = .nil) (hl : f.last = none) :
    ∃ g, n.spell.foldlM step (f, out) = some (g, out) ∧ g.closeNeg = n ∧ g.alt = f.alt ∧ g.conj = f.conj := by
  match n with
  | .one c =>
    obtain ⟨g, h1, h2, h3, h4, h5⟩ := run_cat c f out hc hl
    refine ⟨g, by rw [Neg.spell]; exact h1, ?_, h3, h4⟩
    unfold Frame.closeNeg
    rw [h5, hn, if_neg (by decide), h2]
  | .not c =>
    obtain ⟨g, h1, h2, h3, h4, h5⟩ := run_cat c { f with neg := true } out hc hl
    refine ⟨g, ?_, ?_, h3, h4⟩
    · rw [Neg.spell, List.foldlM_cons]
      have : step (f, out) .tilde = some ({ f with neg := true }, out) := by
        unfold step; dsimp only; rw [hn, hc, hl]
      rw [this]; exact h1
    · unfold Frame.closeNeg
      rw [h5]
      change Neg.not g.closeTerm = _
      rw [h2]
theorem run_cat (c : Cat) (f : Frame) (out : List Frame) (hc : f.cat = .nil) (hl : f.last = none) :
    ∃ g, c.spell.foldlM step (f, out) = some (g, out) ∧ g.closeTerm = c ∧ g.alt = f.alt ∧ g.conj = f.conj ∧ g.neg = f.neg := by
  match c with
  | .nil =>
    refine ⟨f, by rw [Cat.spell]; rfl, ?_, rfl, rfl, rfl⟩
    unfold Frame.closeTerm
    rw [hl, hc]
  | .snoc c i =>
    obtain ⟨g, h1, h2, h3, h4, h5⟩ := run_cat c f out hc hl
    refine ⟨g.iter i, ?_, ?_, ?_⟩
    · rw [Cat.spell, foldlM_append_some h1]; exact run_iter i g out
    · rw [Frame.closeTerm_iter, h2]
    · obtain ⟨i1, i2, i3⟩ := g.iter_alt i
      exact ⟨i1.trans h3, i2.trans h4, i3.trans h5⟩
theorem run_iter (i : Iter) (f : Frame) (out : List Frame) : i.spell.foldlM step (f, out) = some (f.iter i, out) := by
  match i with
  | .one t => rw [Iter.spell]; exact run_term t f out
  | .rep t lo hi => rw [Iter.spell, foldlM_append_some (run_term t f out)]; rfl
theorem run_term (t : Term) (f : Frame) (out : List Frame) : t.spell.foldlM step (f, out) = some (f.term t, out) := by
  match t with
  | .letters cs neg => rw [Term.spell]; rfl
  | .dot => rw [Term.spell]; rfl
  | .bol => rw [Term.spell]; rfl
  | .eol => rw [Term.spell]; rfl
  | .group a =>
    obtain ⟨g, h1, h2⟩ := run_alt a (f :: out)
    rw [Term.spell, List.foldlM_cons]
    change (a.spell ++ [Tok.cls]).foldlM step (Frame.new, f :: out) = _
    rw [foldlM_append_some h1]
    change some (f.term (.group g.closeAlt), out) = _
    rw [h2]
end

theorem parse_spell (a : Alt) : parse a.spell = some a := by
  obtain ⟨g, h1, h2⟩ := run_alt a []
  unfold parse
  rw [h1]
  dsimp only
  rw [h2]

/-! ### Soundness -/

/-- The tokens read since the frame was opened. -/
def Frame.spell (f : Frame) : List Tok :=
  (match f.alt with | none => [] | some a => a.spell ++ [.bar]) ++
  (match f.conj with | none => [] | some c => c.spell ++ [.amp]) ++
  (if f.neg then [.tilde] else []) ++ f.closeTerm.spell

/-- All the tokens read. -/
def spellState : Frame → List Frame → List Tok
  | f, [] => f.spell
  | f, g :: out => spellState g out ++ .opn :: f.spell

theorem Frame.closeConj_spell (f : Frame) : f.closeConj.spell =
    (match f.conj with | none => [] | some c => c.spell ++ [.amp]) ++ (if f.neg then [.tilde] else []) ++ f.closeTerm.spell := by
  unfold Frame.closeConj
  cases f.conj <;> cases f.neg <;> simp [Conj.spell, Neg.spell]

theorem Frame.closeAlt_spell (f : Frame) : f.closeAlt.spell = f.spell := by
  unfold Frame.closeAlt Frame.spell
  cases f.alt <;> simp [Alt.spell, Frame.closeConj_spell]

theorem Frame.term_spell (f : Frame) (t : Term) : (f.term t).spell = f.spell ++ t.spell := by
  unfold Frame.spell
  rw [Frame.closeTerm_term]
  simp [Frame.term, Cat.spell, Iter.spell]
  rfl

theorem spellState_of_append {f f' : Frame} {l : List Tok} (out : List Frame) (h : f'.spell = f.spell ++ l) :
    spellState f' out = spellState f out ++ l := by
  cases out <;> simp [spellState, h]

theorem step_spell {f f' : Frame} {out out' : List Frame} {t : Tok} (h : step (f, out) t = some (f', out')) :
    spellState f' out' = spellState f out ++ [t] := by
  unfold step at h
  dsimp only at h
  cases t with
  | letters cs neg => cases h; exact spellState_of_append _ (Frame.term_spell f _)
  | dot => cases h; exact spellState_of_append _ (Frame.term_spell f _)
  | bol => cases h; exact spellState_of_append _ (Frame.term_spell f _)
  | eol => cases h; exact spellState_of_append _ (Frame.term_spell f _)
  | opn => cases h; simp [spellState, Frame.spell, Frame.new, Frame.closeTerm, Cat.spell]
  | cls =>
    cases out with
    | nil => cases h
    | cons g out =>
      cases h
      rw [spellState_of_append _ (Frame.term_spell g _)]
      simp [spellState, Term.spell, Frame.closeAlt_spell]
  | bar =>
    cases h
    apply spellState_of_append
    simp [Frame.spell, Frame.closeTerm, Cat.spell, Frame.closeAlt_spell]
  | amp =>
    cases h
    apply spellState_of_append
    simp [Frame.spell, Frame.closeTerm, Cat.spell, Frame.closeConj_spell]
  | tilde =>
    dsimp only at h
    split at h
    · next h1 h2 h3 =>
      cases h
      apply spellState_of_append
      simp [Frame.spell, Frame.closeTerm, h1, h2, h3, Cat.spell]
    · cases h
  | count lo hi =>
    dsimp only at h
    split at h
    · cases h
    · next t ht =>
      cases h
      apply spellState_of_append
      simp [Frame.spell, Frame.closeTerm, ht, Cat.spell, Iter.spell]

theorem run_spell (ts : List Tok) : ∀ {f f' : Frame} {out out' : List Frame}, ts.foldlM step (f, out) = some (f', out') →
    spellState f' out' = spellState f out ++ ts := by
  induction ts with
  | nil => intro f f' out out' h; cases h; simp
  | cons t ts ih =>
    intro f f' out out' h
    rw [List.foldlM_cons] at h
    cases hs : step (f, out) t with
    | none => rw [hs] at h; cases h
    | some x =>
      obtain ⟨g, o⟩ := x
      rw [hs] at h
      rw [ih h, step_spell hs]
      simp

theorem parse_iff {ts : List Tok} {a : Alt} : parse ts = some a ↔ a.spell = ts := by
  constructor
  · intro h
    unfold parse at h
    split at h
    · next f hf =>
      cases h
      have := run_spell ts hf
      simp only [spellState] at this
      rw [Frame.closeAlt_spell, this]
      rfl
    · cases h
  · rintro rfl; exact parse_spell a

end Pire.Parse
