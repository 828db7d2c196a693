import Verif.Spec.CText
import Verif.Model.Inline

/-!
# The texts `pire_inline` reads and writes
-/

namespace Pire
namespace Inline

open Spec

/-! ### Reading -/

theorem closing_backslash {x : Nat} (r : List Nat) (b b' : Bool) (h : x ≠ 34) : closing b (x :: r) = closing b' (x :: r) := by
  rw [closing, closing, if_neg h, if_neg h]

theorem closing_chars {s v : List Nat} (h : Chars false s v) : ∀ (t : List Nat), s.getLast? ≠ some 92 → ∀ b, (s = [] → b = false) →
    closing b (s ++ 34 :: t) = some (s, t) := by
  induction h with
  | nil => intro t _ b hb; rw [hb rfl]; simp [closing]
  | @plain c s v h1 h2 h3 h4 _ ih =>
    intro t hl b _
    rw [List.cons_append, closing, if_neg h1, show (c == 92) = false by simpa using h2, ih t ?_ false (fun _ => rfl)]
    · rfl
    · cases s with
      | nil => simp
      | cons => simpa using hl
  | @simple c b' s v hc hs ih =>
    intro t hl b _
    rw [List.cons_append, List.cons_append, closing, if_neg (by decide), show ((92 : Nat) == 92) = true from rfl]
    have hl' : s.getLast? ≠ some 92 := by
      cases s with
      | nil => simp
      | cons => simpa using hl
    have hn : s = [] → (c == 92) = false := by
      rintro rfl
      simpa using hl
    by_cases h34 : c = 34
    · subst h34
      rw [closing, if_pos rfl, if_pos rfl, ih t hl' false fun _ => rfl]
      rfl
    · rw [closing, if_neg h34, ih t hl' _ hn]
      rfl
  | octal h => cases h
  | hex h => cases h

theorem chars_head {s v : List Nat} (h : Chars false s v) : (s ++ [34]).headD 0 ≠ 0 := by
  cases h with
  | nil => decide
  | plain _ _ _ h => exact h
  | simple => simp
  | octal h => cases h
  | hex h => cases h

theorem readString_chars {s v : List Nat} (h : Chars false s v) : ∀ (fuel : Nat) (acc : List Nat), s.length < fuel →
    readString fuel (s ++ [34]) acc = some (acc ++ v) := by
  induction h with
  | nil =>
    intro fuel acc hf
    obtain ⟨fuel, rfl⟩ : ∃ k, fuel = k + 1 := ⟨fuel - 1, by simp at hf; omega⟩
    simp [readString]
  | @plain c s v h1 h2 h3 h4 hs ih =>
    intro fuel acc hf
    obtain ⟨fuel, rfl⟩ : ∃ k, fuel = k + 1 := ⟨fuel - 1, by simp at hf; omega⟩
    have := chars_head hs
    rw [List.cons_append, readString.eq_def]
    dsimp only
    rw [if_neg h4, if_neg this, if_neg h2, ih fuel _ (by simpa using hf)]
    simp
  | @simple c b s v hc hs ih =>
    intro fuel acc hf
    obtain ⟨fuel, rfl⟩ : ∃ k, fuel = k + 1 := ⟨fuel - 1, by simp at hf; omega⟩
    have hi := fun acc => ih fuel acc (by simp at hf; omega)
    have hn : c ≠ 0 := by cases hc <;> decide
    rw [List.cons_append, List.cons_append, readString.eq_def]
    dsimp only
    rw [if_neg (by decide), if_neg (by simpa using hn), if_pos rfl]
    cases hc <;> simp [hi]
  | octal h => cases h
  | hex h => cases h

theorem readArguments_white {w : List Nat} (hw : White w) : ∀ (fuel : Nat) (t : List Nat) (args : List (List Nat)) (cur : List Nat),
    readArguments (fuel + w.length) (w ++ t) args cur = readArguments fuel t args cur := by
  induction w with
  | nil => intros; rfl
  | cons c w ih =>
    intro fuel t args cur
    rw [List.length_cons, ← Nat.add_assoc, List.cons_append, readArguments.eq_def]
    dsimp only
    have hc := hw c (by simp)
    rw [if_neg (by omega), if_neg (by omega), if_neg (by omega), if_neg (by omega)]
    exact ih (fun x hx => hw x (by simp [hx])) _ _ _ _

theorem readArguments_arg {t v : List Nat} (h : Arg t v) : ∀ (fuel : Nat) (r : List Nat) (args : List (List Nat)) (cur : List Nat), (t ++ r).length < fuel →
    ∃ fuel', r.length < fuel' ∧ readArguments fuel (t ++ r) args cur = readArguments fuel' r args (cur ++ v) := by
  induction h with
  | @blank w hw =>
    intro fuel r args cur hf
    obtain ⟨k, rfl⟩ : ∃ k, fuel = k + w.length := ⟨fuel - w.length, by simp at hf; omega⟩
    exact ⟨k, by simp at hf; omega, by rw [readArguments_white hw, List.append_nil]⟩
  | @text w s v t u hw hs hl _ ih =>
    intro fuel r args cur hf
    obtain ⟨k, rfl⟩ : ∃ k, fuel = k + 1 + w.length := ⟨fuel - w.length - 1, by simp at hf; omega⟩
    obtain ⟨f', h1, h2⟩ := ih k r args (cur ++ v) (by simp at hf ⊢; omega)
    refine ⟨f', h1, ?_⟩
    rw [show w ++ 34 :: (s ++ 34 :: t) ++ r = w ++ (34 :: (s ++ 34 :: (t ++ r))) by simp, readArguments_white hw, readArguments.eq_def]
    dsimp only
    rw [if_pos rfl, closing_chars hs _ hl false fun _ => rfl]
    dsimp only
    rw [readString_chars hs _ _ (by omega), Option.bind_some, h2, List.append_assoc]

theorem readArguments_args {text : List Nat} {vs : List (List Nat)} (h : Args text vs) : ∀ (fuel : Nat) (args : List (List Nat)), text.length < fuel →
    readArguments fuel text args [] = some (args ++ vs) := by
  induction h with
  | @last t v ht =>
    intro fuel args hf
    obtain ⟨f', h1, h2⟩ := readArguments_arg ht fuel [41] args [] hf
    obtain ⟨f', rfl⟩ : ∃ k, f' = k + 1 := ⟨f' - 1, by simp at h1; omega⟩
    rw [h2]
    simp [readArguments]
  | @more t v t' vs ht _ ih =>
    intro fuel args hf
    obtain ⟨f', h1, h2⟩ := readArguments_arg ht fuel (44 :: t') args [] hf
    obtain ⟨f', rfl⟩ : ∃ k, f' = k + 1 := ⟨f' - 1, by simp at h1; omega⟩
    rw [h2, readArguments.eq_def]
    dsimp only
    rw [if_neg (by decide), if_pos rfl, ih f' _ (by simpa using h1)]
    simp

/-! ### Writing -/

theorem hexValue_hexDigit {n : Nat} (h : n < 16) : hexValue (hexDigit n) = some n := by
  unfold hexDigit hexValue
  split_ifs <;> first | (congr 1; omega)

theorem chars_hex {b : Nat} (hb : b < 256) {s v : List Nat} (hs : ∀ c, s.head? = some c → hexValue c = none) (h : Chars true s v) :
    Chars true (hexByte b ++ s) (b :: v) := by
  have e : inBase 16 [b / 16, b % 16] = b := by unfold inBase; simp; omega
  have := Chars.hex (num := true) (ds := [hexDigit (b / 16), hexDigit (b % 16)]) (xs := [b / 16, b % 16]) rfl (by simp)
    (by simp [hexValue_hexDigit (show b / 16 < 16 by omega), hexValue_hexDigit (show b % 16 < 16 by omega)]) hs (by rw [e]; exact hb) h
  rw [e] at this
  exact this

theorem chars_bytes : ∀ bs : List (Fin 256), Chars true (bs.flatMap fun b => hexByte b.val) (bs.map (·.val)) := by
  intro bs
  induction bs with
  | nil => exact .nil
  | cons b bs ih =>
    refine chars_hex b.2 ?_ ih
    intro c hc
    cases bs with
    | nil => cases hc
    | cons => cases hc; decide

theorem literals_print : ∀ (bs : List (Fin 256)) (pos : Nat) (done : List (Fin 256)),
    Literals (34 :: ((done.flatMap fun b => hexByte b.val) ++ (printBytes pos bs ++ [34]))) ((done ++ bs).map (·.val)) := by
  intro bs
  induction bs with
  | nil => intro pos done; rw [printBytes, List.nil_append, List.append_nil]; exact .one (chars_bytes done)
  | cons b bs ih =>
    intro pos done
    have e : ∀ t, (done.flatMap fun b => hexByte b.val) ++ (hexByte b ++ t) = ((done ++ [b]).flatMap fun b => hexByte b.val) ++ t := by
      intro t; simp
    rw [printBytes]
    split
    · have := Literals.more (chars_bytes (done ++ [b])) (w := [10, 32, 32, 32, 32]) (by simp [White]) (ih 5 [])
      rw [List.append_assoc, e]
      simpa using this
    · have := ih (pos + 4) (done ++ [b])
      rw [List.append_assoc, e]
      simpa using this

theorem mem_intercalate {c : Nat} {sep : List Nat} (hc : c ∉ sep) : ∀ l : List (List Nat), (∀ x ∈ l, c ∉ x) → c ∉ sep.intercalate l := by
  intro l
  induction l with
  | nil => intro _ h; simp [List.intercalate] at h
  | cons x l ih =>
    intro h
    cases l with
    | nil => simpa [List.intercalate] using h
    | cons y l =>
      have h1 := ih fun z hz => h z (by simp [hz])
      have e : sep.intercalate (x :: y :: l) = x ++ (sep ++ sep.intercalate (y :: l)) := by simp [List.intercalate]
      rw [e, List.mem_append, List.mem_append]
      rintro (h' | h' | h')
      · exact h x (by simp) h'
      · exact hc h'
      · exact h1 h'

theorem commented_literal {xs : List Item} (h : ∀ x ∈ xs, 10 ∉ x.pattern) (bytes : List (Fin 256)) :
    Commented (literalText xs bytes) (bytes.map (·.val)) := by
  refine ⟨32 :: (comment xs ++ [32]), [32, 32, 32, 32], 34 :: (printBytes 5 bytes ++ [34]), ?_, by simp [White], literals_print bytes 5 [], by simp [literalText]⟩
  have : 10 ∉ comment xs := by
    intro hm
    exact mem_intercalate (by decide) _ (by simpa using h) ((List.takeWhile_sublist _).subset hm)
  simpa using this

end Inline

/-! ### The reading of a text is unique -/

namespace Spec

theorem run_le {p : Nat → Prop} {l1 r1 l2 r2 : List Nat} (h : l1 ++ r1 = l2 ++ r2) (h2 : ∀ x ∈ l2, p x)
    (h1 : l2.length ≤ l1.length ∨ ∀ c, r1.head? = some c → ¬ p c) : l2.length ≤ l1.length := by
  rcases h1 with h1 | h1
  · exact h1
  by_contra hlt
  obtain ⟨a, rfl⟩ : ∃ a, l2 = l1 ++ a := by
    rcases List.append_eq_append_iff.1 h with ⟨a, e, -⟩ | ⟨a, e, -⟩
    · exact ⟨a, e⟩
    · rw [e, List.length_append] at hlt; omega
  rw [List.append_assoc, List.append_cancel_left_eq] at h
  cases a with
  | nil => simp at hlt
  | cons x a => exact h1 x (by rw [h]; rfl) (h2 x (by simp))

theorem Simple.unique {c b b' : Nat} (h : Simple c b) (h' : Simple c b') : b = b' := by
  cases h <;> cases h' <;> rfl

theorem Simple.notOct {c b : Nat} (h : Simple c b) : ¬ IsOct c ∧ c ≠ 120 := by
  cases h <;> simp [IsOct]

theorem head_or {s r : List Nat} {c : Nat} {p : Nat → Prop} (h : ∀ c, s.head? = some c → ¬ p c) (h34 : ¬ p 34) (hc : (s ++ 34 :: r).head? = some c) : ¬ p c := by
  cases s with
  | nil => cases hc; exact h34
  | cons x s => exact h c hc

theorem Chars.unique {s v : List Nat} (h : Chars true s v) : ∀ {s' v' r r' : List Nat}, Chars true s' v' → s ++ 34 :: r = s' ++ 34 :: r' →
    s = s' ∧ v = v' ∧ r = r' := by
  induction h with
  | nil =>
    intro s' v' r r' h' e
    cases h' with
    | nil => simpa using e
    | plain h => simp at e; exact absurd e.1.symm h
    | simple => simp at e
    | octal => simp at e
    | hex => simp at e
  | @plain c s v h1 h2 h3 h4 _ ih =>
    intro s' v' r r' h' e
    cases h' with
    | nil => simp at e; exact absurd e.1 h1
    | plain _ _ _ _ h' =>
      simp only [List.cons_append, List.cons.injEq] at e
      obtain ⟨rfl, rfl, rfl⟩ := ih h' e.2
      exact ⟨by rw [e.1], by rw [e.1], rfl⟩
    | simple => simp at e; exact absurd e.1 h2
    | octal => simp at e; exact absurd e.1 h2
    | hex => simp at e; exact absurd e.1 h2
  | @simple c b s v hc _ ih =>
    intro s' v' r r' h' e
    cases h' with
    | nil => simp at e
    | plain _ h => simp at e; exact absurd e.1.symm h
    | simple hc' h' =>
      simp only [List.cons_append, List.cons.injEq] at e
      obtain ⟨rfl, rfl, rfl⟩ := ih h' e.2.2
      obtain ⟨-, rfl, -⟩ := e
      exact ⟨rfl, by rw [hc.unique hc'], rfl⟩
    | @octal ds _ _ _ hne _ ho =>
      cases ds with
      | nil => exact absurd rfl hne
      | cons d ds =>
        simp only [List.cons_append, List.cons.injEq] at e
        exact absurd (e.2.1 ▸ ho d (by simp)) hc.notOct.1
    | hex =>
      simp only [List.cons_append, List.cons.injEq] at e
      exact absurd e.2.1 hc.notOct.2
  | @octal ds s v _ hne hlen ho hmax _ _ ih =>
    intro s' v' r r' h' e
    cases h' with
    | nil => simp at e
    | plain _ h => simp at e; exact absurd e.1.symm h
    | simple hc' =>
      cases ds with
      | nil => exact absurd rfl hne
      | cons d ds =>
        simp only [List.cons_append, List.cons.injEq] at e
        exact absurd (e.2.1 ▸ ho d (by simp)) hc'.notOct.1
    | @octal ds' s' v' _ hne' hlen' ho' hmax' _ h' =>
      simp only [List.cons_append, List.cons.injEq, List.append_assoc, true_and] at e
      have h34 : ¬ IsOct 34 := by simp [IsOct]
      have l1 := run_le e ho' (hmax.imp (fun h => by omega) fun h c hc => head_or h h34 hc)
      have l2 := run_le e.symm ho (hmax'.imp (fun h => by omega) fun h c hc => head_or h h34 hc)
      obtain ⟨rfl, e2⟩ := List.append_inj e (by omega)
      obtain ⟨rfl, rfl, rfl⟩ := ih h' e2
      exact ⟨rfl, rfl, rfl⟩
    | hex =>
      cases ds with
      | nil => exact absurd rfl hne
      | cons d ds =>
        simp only [List.cons_append, List.cons.injEq] at e
        have := e.2.1 ▸ ho d (by simp)
        simp [IsOct] at this
  | @hex ds xs s v _ hne hmap hmax _ _ ih =>
    intro s' v' r r' h' e
    cases h' with
    | nil => simp at e
    | plain _ h => simp at e; exact absurd e.1.symm h
    | simple hc' =>
      simp only [List.cons_append, List.cons.injEq] at e
      exact absurd e.2.1.symm hc'.notOct.2
    | @octal ds' _ _ _ hne' _ ho' =>
      cases ds' with
      | nil => exact absurd rfl hne'
      | cons d ds' =>
        simp only [List.cons_append, List.cons.injEq] at e
        have := e.2.1 ▸ ho' d (by simp)
        simp [IsOct] at this
    | @hex ds' xs' s' v' _ hne' hmap' hmax' _ h' =>
      simp only [List.cons_append, List.cons.injEq, List.append_assoc, true_and] at e
      have hp : ∀ {ds xs : List Nat}, ds.map hexValue = xs.map some → ∀ d ∈ ds, hexValue d ≠ none := by
        intro ds xs hm d hd hn
        have := List.mem_map_of_mem (f := hexValue) hd
        rw [hm, hn] at this
        simp at this
      have h34 : ¬ hexValue 34 ≠ none := by decide
      have l1 := run_le e (hp hmap') (.inr fun c hc => head_or (p := fun c => hexValue c ≠ none) (fun c hc => by rw [hmax c hc]; simp) h34 hc)
      have l2 := run_le e.symm (hp hmap) (.inr fun c hc => head_or (p := fun c => hexValue c ≠ none) (fun c hc => by rw [hmax' c hc]; simp) h34 hc)
      obtain ⟨rfl, e2⟩ := List.append_inj e (by omega)
      obtain ⟨rfl, rfl, rfl⟩ := ih h' e2
      have : xs = xs' := List.map_injective_iff.2 (Option.some_injective _) (hmap.symm.trans hmap')
      subst this
      exact ⟨rfl, rfl, rfl⟩

theorem Literals.head {t v : List Nat} (h : Literals t v) : ∃ r, t = 34 :: r := by
  cases h <;> exact ⟨_, rfl⟩

theorem white_unique {w w' t t' v v' : List Nat} (hw : White w) (hw' : White w') (h : Literals t v) (h' : Literals t' v') (e : w ++ t = w' ++ t') :
    w = w' ∧ t = t' := by
  obtain ⟨r, rfl⟩ := h.head
  obtain ⟨r', rfl⟩ := h'.head
  have h34 : ∀ (r : List Nat) c, (34 :: r).head? = some c → ¬ (c = 32 ∨ c = 9 ∨ c = 10) := by
    intro r c hc; cases hc; decide
  have l1 := run_le e hw' (.inr (h34 _))
  have l2 := run_le e.symm hw (.inr (h34 _))
  exact List.append_inj e (by omega)

theorem Literals.unique {t v : List Nat} (h : Literals t v) : ∀ {v' : List Nat}, Literals t v' → v = v' := by
  induction h with
  | @one s v hs =>
    intro v' h'
    generalize ht : 34 :: (s ++ [34]) = t at h'
    cases h' with
    | one hs' =>
      simp only [List.cons.injEq, true_and] at ht
      exact (hs.unique hs' ht).2.1
    | @more s' v' w t' u hs' hw hl =>
      simp only [List.cons.injEq, true_and] at ht
      obtain ⟨r, rfl⟩ := hl.head
      simpa using (hs.unique hs' ht).2.2
  | @more s v w t u hs hw hl ih =>
    intro v' h'
    generalize ht : 34 :: (s ++ 34 :: (w ++ t)) = t' at h'
    cases h' with
    | one hs' =>
      simp only [List.cons.injEq, true_and] at ht
      obtain ⟨r, rfl⟩ := hl.head
      simpa using (hs.unique hs' ht).2.2
    | @more s' v' w' t' u' hs' hw' hl' =>
      simp only [List.cons.injEq, true_and] at ht
      obtain ⟨-, rfl, e⟩ := hs.unique hs' ht
      obtain ⟨-, rfl⟩ := white_unique hw hw' hl hl' e
      rw [ih hl']

theorem line_unique {c c' r r' : List Nat} (hc : 10 ∉ c) (hc' : 10 ∉ c') (e : c ++ 10 :: r = c' ++ 10 :: r') : c = c' ∧ r = r' := by
  have hp : ∀ {c : List Nat}, 10 ∉ c → ∀ x ∈ c, x ≠ 10 := by rintro c h x hx rfl; exact h hx
  have h10 : ∀ (r : List Nat) c, (10 :: r).head? = some c → ¬ c ≠ 10 := by intro r c hc; cases hc; simp
  have l1 := run_le e (hp hc') (.inr (h10 _))
  have l2 := run_le e.symm (hp hc) (.inr (h10 _))
  obtain ⟨e1, e2⟩ := List.append_inj e (by omega)
  exact ⟨e1, by simpa using e2⟩

theorem Commented.unique {text v v' : List Nat} (h : Commented text v) (h' : Commented text v') : v = v' := by
  obtain ⟨c, w, t, h1, h2, h3, rfl⟩ := h
  obtain ⟨c', w', t', h1', h2', h3', e⟩ := h'
  simp only [List.cons.injEq, true_and] at e
  obtain ⟨-, e⟩ := line_unique h1 h1' e
  obtain ⟨-, rfl⟩ := white_unique h2 h2' h3 h3' e
  exact h3.unique h3'

end Spec
end Pire
