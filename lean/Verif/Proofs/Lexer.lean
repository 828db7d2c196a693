import Verif.Model.Lexer
import Verif.Spec.Syntax
import Verif.Proofs.Unidata
import Mathlib.Tactic.IntervalCases

/-!
# The lexer reads what the syntax says
-/

namespace Pire.Lex

open Pire.Spec Pire.Unidata

theorem ok_bind {α β : Type} (a : α) (f : α → Res β) : (Res.ok a >>= f) = f a := rfl

/-! ### Bits -/

theorem and_ff00 (c : Nat) : c &&& 0xFF00 = c / 256 % 256 * 256 := by
  have h : (0xFF00 : Nat) = 255 <<< 8 := by decide
  rw [h]
  apply Nat.eq_of_testBit_eq
  intro i
  have e : c / 256 % 256 * 256 = (c >>> 8 % 2 ^ 8) <<< 8 := by
    rw [Nat.shiftLeft_eq, Nat.shiftRight_eq_div_pow]; norm_num
  rw [e, Nat.testBit_and, Nat.testBit_shiftLeft, Nat.testBit_shiftLeft, Nat.testBit_mod_two_pow, Nat.testBit_shiftRight,
    show (255 : Nat) = 2 ^ 8 - 1 from rfl, Nat.testBit_two_pow_sub_one]
  by_cases h8 : 8 ≤ i
  · have : 8 + (i - 8) = i := by omega
    simp [h8, this, Bool.and_comm]
  · simp [h8]

theorem isControl_iff (c : Nat) : isControl c = true ↔ Reserved c := by
  unfold isControl ControlMask Control Reserved
  rw [and_ff00, beq_iff_eq]
  omega

theorem isControl_false (c : Nat) : isControl c = false ↔ ¬ Reserved c := by
  rw [← isControl_iff]; simp

theorem control_or {c : Nat} (h : c < 256) : Control ||| c = 0xF000 + c := by
  have : ∀ c < 256, Control ||| c = 0xF000 + c := by decide +kernel
  exact this c h

theorem isControl_ctl {c : Nat} (h : c < 256) : isControl (0xF000 + c) = true := by
  rw [isControl_iff]; unfold Reserved; omega

theorem plain_ctl {c : Nat} (h : c < 256) : plain (0xF000 + c) = c := by
  have : ∀ c < 256, plain (0xF000 + c) = c := by decide +kernel
  exact this c h

/-! ### Characters of the input -/

/-- The lexer sometimes replaces an escape sequence at the front of the input by one internal character; this changes
nothing. -/
def Same (a b : List Nat) : Prop := a = b ∨ ∃ ch s, ch < 255 ∧ b = 92 :: ch :: s ∧ a = (0xF000 + ch) :: s

theorem Same.refl (a : List Nat) : Same a a := .inl rfl

theorem Same.getChar {a b : List Nat} (h : Same a b) : getChar a = getChar b := by
  rcases h with rfl | ⟨ch, s, h, rfl, rfl⟩
  · rfl
  · simp only [Lex.getChar]
    rw [if_neg (by omega), if_pos trivial, control_or (by omega)]

/-- What follows a piece of a pattern. -/
inductive Tame : List Nat → Prop
  | nil : Tame []
  | plain {c s} : c ≠ 92 → c ≠ End → Tame (c :: s)
  | quoted {ch s} : ch < 255 → Tame (92 :: ch :: s)

theorem getChar_plain {c : Nat} {s : List Nat} (h : c ≠ 92) : getChar (c :: s) = .ok (c, s) := by
  simp [getChar, h]

theorem getChar_quoted {ch : Nat} {s : List Nat} (h : ch < 256) : getChar (92 :: ch :: s) = .ok (0xF000 + ch, s) := by
  simp [getChar, control_or h]

/-- Looking one character ahead. -/
theorem Tame.look {s : List Nat} (h : Tame s) : ∃ c s1, getChar s = .ok (c, s1) ∧ Same (ungetChar c s1) s := by
  cases h with
  | nil => exact ⟨_, _, rfl, .refl _⟩
  | plain h1 h2 => exact ⟨_, _, getChar_plain h1, by rw [ungetChar, if_neg h2]; exact .refl _⟩
  | @quoted ch s h =>
    refine ⟨_, _, getChar_quoted (by omega), .inr ⟨ch, s, h, rfl, ?_⟩⟩
    rw [ungetChar, if_neg (by simp only [End]; omega)]

/-! ### Hexadecimal codes -/

theorem hexDigit_spec {d v : Nat} (h : HexDigit d v) : isHexDigit d = true ∧ hexVal d = v ∧ d ≠ 92 ∧ d ≠ End ∧ d ≠ 125 ∧ d ≠ 123 ∧ v < 16 := by
  unfold isHexDigit hexVal End
  cases h with
  | digit v h => simp; split <;> omega
  | capital v h1 h2 => simp; (repeat' split) <;> omega
  | small v h1 h2 => simp; (repeat' split) <;> omega

theorem hex_all {ds : List Nat} {n : Nat} (h : Hex ds n) : ∀ d ∈ ds, ∃ v, HexDigit d v := by
  induction h with
  | nil => intro d hd; cases hd
  | snoc h hd ih =>
    intro d h
    rcases List.mem_append.1 h with h | h
    · exact ih d h
    · rw [List.mem_singleton.1 h]; exact ⟨_, hd⟩

theorem hex_value {ds : List Nat} {n : Nat} (h : Hex ds n) : ds.foldl (fun v c => v * 16 + hexVal c) 0 = n := by
  induction h with
  | nil => rfl
  | snoc h hd ih =>
    rw [List.foldl_append, ih]
    simp only [List.foldl_cons, List.foldl_nil]
    rw [(hexDigit_spec hd).2.1]; omega

theorem hexToDec_ok {ds : List Nat} {n : Nat} (h : Hex ds n) (hne : ds ≠ []) (hn : n ≤ 0x10FFFF) : hexToDec ds = .ok n := by
  unfold hexToDec
  rw [if_neg hne, hex_value h]
  dsimp only
  have e : (if n < 2 ^ 64 then n % 2 ^ 32 else MaxUnicode + 1) = n := by rw [if_pos (by omega), Nat.mod_eq_of_lt (by omega)]
  rw [e, if_neg (by simp only [MaxUnicode]; omega)]

/-- Digits are read one by one as long as the loop does not stop. -/
theorem readHexDigit_run {stop : Nat → Nat → Bool} (ds : List Nat) : ∀ (fuel : Nat) (acc r : List Nat), (∀ d ∈ ds, ∃ v, HexDigit d v) →
    (∀ d ∈ ds, ∀ k, k < acc.length + ds.length → stop d k = false) →
    readHexDigit stop (ds.length + fuel) acc (ds ++ r) = readHexDigit stop fuel (acc ++ ds) r := by
  induction ds with
  | nil => intro fuel acc r _ _; simp
  | cons d ds ih =>
    intro fuel acc r h1 h2
    obtain ⟨v, hv⟩ := h1 d (by simp)
    obtain ⟨a1, -, a2, -⟩ := hexDigit_spec hv
    rw [show (d :: ds).length + fuel = (ds.length + fuel) + 1 by simp; omega, readHexDigit, List.cons_append, getChar_plain a2]
    change (if stop d acc.length = true then _ else if isHexDigit d = true then readHexDigit stop (ds.length + fuel) (acc ++ [d]) (ds ++ r) else _) = _
    rw [if_neg (by rw [h2 d (by simp) _ (by simp)]; decide), if_pos a1,
      ih fuel (acc ++ [d]) r (fun x hx => h1 x (by simp [hx])) fun x hx k hk => h2 x (by simp [hx]) k (by simp at hk ⊢; omega)]
    simp

theorem readHexDigit_stop {stop : Nat → Nat → Bool} {fuel : Nat} {acc r : List Nat} (hr : Tame r)
    (hs : ∀ c s1, getChar r = .ok (c, s1) → stop c acc.length = true) :
    ∃ r', readHexDigit stop (fuel + 1) acc r = .ok (acc, r') ∧ Same r' r := by
  obtain ⟨c, s1, h1, h2⟩ := hr.look
  refine ⟨_, ?_, h2⟩
  rw [readHexDigit, h1]
  change (if stop c acc.length = true then _ else _) = _
  rw [if_pos (hs c s1 h1)]

/-- Reading a character code; the escape itself has already been turned into one character. -/
theorem readUnicode_ok {t : List Nat} {c : Nat} (h : CharCode t c) {r : List Nat} (hr : Tame r) :
    ∃ t', t = 92 :: 120 :: t' ∧ ∃ r', readUnicode ((0xF000 + 120) :: (t' ++ r)) = .ok (c, r') ∧ Same r' r := by
  cases h with
  | @two ds c h hl =>
    refine ⟨ds, rfl, ?_⟩
    have hall := hex_all h
    obtain ⟨r', e1, e2⟩ := readHexDigit_stop (stop := fun _ n => decide (n = 2)) (fuel := r.length + 2) (acc := ds) hr (by simp [hl])
    refine ⟨r', ?_, e2⟩
    unfold readUnicode
    rw [getChar_plain (by decide)]
    obtain ⟨d, v, hd, hv⟩ : ∃ d v, ds.head? = some d ∧ HexDigit d v := by
      cases ds with
      | nil => simp at hl
      | cons d ds => obtain ⟨v, hv⟩ := hall d (by simp); exact ⟨d, v, rfl, hv⟩
    have hp : peekChar (ds ++ r) ≠ 123 := by
      cases ds with
      | nil => cases hd
      | cons x ds => cases hd; exact (hexDigit_spec hv).2.2.2.2.2.1
    change (if peekChar (ds ++ r) = 123 then _ else _) = _
    rw [if_neg hp]
    have e3 := readHexDigit_run (stop := fun _ n => decide (n = 2)) ds (r.length + 3) [] r hall (by
      intro d _ k hk
      simp at hk ⊢
      omega)
    rw [List.nil_append] at e3
    rw [show (ds ++ r).length + 3 = ds.length + (r.length + 3) by simp; omega, e3, e1]
    change (if ds.length ≠ 2 then _ else _) = _
    rw [if_neg (by omega)]
    have hn : c ≤ 0x10FFFF := by
      have hb : ∀ {ds n}, Hex ds n → n < 16 ^ ds.length := by
        intro ds n h
        induction h with
        | nil => simp
        | snoc h hd ih =>
          have := (hexDigit_spec hd).2.2.2.2.2.2
          simp only [List.length_append, List.length_singleton, pow_succ]
          omega
      have := hb h
      rw [hl] at this
      omega
    rw [hexToDec_ok h (by intro e; rw [e] at hl; simp at hl) hn]
    rfl
  | @braces ds c h hne hn =>
    refine ⟨123 :: ds ++ [125], rfl, r, ?_, .refl r⟩
    have hall := hex_all h
    unfold readUnicode
    rw [getChar_plain (by decide)]
    rw [ok_bind]
    dsimp only
    rw [if_pos (show peekChar (123 :: ds ++ [125] ++ r) = 123 from rfl), List.cons_append, List.cons_append, getChar_plain (by decide), ok_bind]
    dsimp only
    have e0 : (ds ++ ([125] ++ r)).length + 1 = ds.length + (r.length + 2) := by simp; omega
    rw [List.append_assoc, e0,
      readHexDigit_run ds (r.length + 2) [] ([125] ++ r) hall (by
        intro d hd k _
        obtain ⟨v, hv⟩ := hall d hd
        obtain ⟨-, -, -, h1, h2, -⟩ := hexDigit_spec hv
        simp [h1, h2])]
    have e : readHexDigit (fun ch n => decide (ch = End) || (decide (n ≠ 0) && decide (ch = 125))) (r.length + 2) ([] ++ ds) ([125] ++ r) =
        .ok (ds, 125 :: r) := by
      rw [readHexDigit, List.cons_append, List.nil_append, List.nil_append, getChar_plain (by decide)]
      change (if (decide (125 = End) || (decide (ds.length ≠ 0) && decide (125 = 125))) = true then Res.ok (ds, ungetChar 125 r) else _) = _
      rw [if_pos (by simp [hne])]
      rfl
    rw [e, ok_bind]
    dsimp only
    rw [getChar_plain (by decide), ok_bind]
    dsimp only
    rw [if_neg (by decide), hexToDec_ok h hne hn]
    rfl

/-! ### Repetition counts -/

theorem isDigit_digit {v : Nat} (h : v < 10) : isDigit (48 + v) = true := (latin_spec (by omega)).1.2 (by omega)

theorem isDigit_low {c : Nat} (h : c < 256) (h2 : ¬ (48 ≤ c ∧ c ≤ 57)) : isDigit c = false := by
  cases hd : isDigit c with
  | false => rfl
  | true => exact absurd ((latin_spec h).1.1 hd) h2

/-- One more digit. -/
def decVal (n d : Nat) : Nat := n * 10 + (d - 48)

theorem decimal_spec {ds : List Nat} {n : Nat} (h : Decimal ds n) : (∀ d ∈ ds, 48 ≤ d ∧ d ≤ 57) ∧ ds.foldl decVal 0 = n := by
  induction h with
  | nil => exact ⟨(fun d hd => by cases hd), rfl⟩
  | snoc h hv ih =>
    refine ⟨fun d hd => ?_, ?_⟩
    · rcases List.mem_append.1 hd with hd | hd
      · exact ih.1 d hd
      · rw [List.mem_singleton.1 hd]; omega
    · rw [List.foldl_append, ih.2]
      simp only [List.foldl_cons, List.foldl_nil, decVal]
      omega

theorem le_foldl_decVal (ds : List Nat) : ∀ n, n ≤ ds.foldl decVal n := by
  induction ds with
  | nil => intro n; exact le_rfl
  | cons d ds ih => intro n; exact le_trans (by unfold decVal; omega) (ih _)

theorem readInt_run {c : Nat} {r : List Nat} (hc : c < 256) (hc2 : ¬ (48 ≤ c ∧ c ≤ 57)) (h92 : c ≠ 92) (ds : List Nat) : ∀ (fuel n ch : Nat),
    (∀ d ∈ ch :: ds, 48 ≤ d ∧ d ≤ 57) → (ch :: ds).foldl decVal n < 2 ^ 31 →
    readInt (ds.length + 2 + fuel) n ch (ds ++ c :: r) = .ok ((ch :: ds).foldl decVal n, c, r) := by
  induction ds with
  | nil =>
    intro fuel n ch hd hn
    have hch := hd ch (by simp)
    have hdig : isDigit ch = true := (latin_spec (by omega)).1.2 hch
    simp only [List.foldl_cons, List.foldl_nil, decVal] at hn ⊢
    rw [show List.length ([] : List Nat) + 2 + fuel = (fuel + 1) + 1 by simp; omega, readInt, if_pos hdig]
    dsimp only
    rw [if_neg (by omega), List.nil_append, getChar_plain h92, ok_bind]
    dsimp only
    rw [readInt, if_neg (by rw [isDigit_low hc hc2]; decide)]
  | cons d ds ih =>
    intro fuel n ch hd hn
    have hch := hd ch (by simp)
    have hdd := hd d (by simp)
    have hdig : isDigit ch = true := (latin_spec (by omega)).1.2 hch
    rw [show (d :: ds).length + 2 + fuel = (ds.length + 2 + fuel) + 1 by simp; omega, readInt, if_pos hdig]
    rw [List.foldl_cons] at hn ⊢
    have hle := le_foldl_decVal (d :: ds) (decVal n ch)
    dsimp only
    rw [if_neg (by unfold decVal at hle hn; omega), List.cons_append, getChar_plain (by omega), ok_bind]
    dsimp only
    exact ih fuel (decVal n ch) d (fun x hx => hd x (by simp only [List.mem_cons] at hx ⊢; exact .inr hx)) hn

theorem readInt_ok {ds : List Nat} {n : Nat} (h : Decimal ds n) (hne : ds ≠ []) (hn : n < 2 ^ 31) {c : Nat} {r : List Nat}
    (hc : c < 256) (hc2 : ¬ (48 ≤ c ∧ c ≤ 57)) (h92 : c ≠ 92) :
    ∃ d s, getChar (ds ++ c :: r) = .ok (d, s) ∧ isDigit d = true ∧ 48 ≤ d ∧ d ≤ 57 ∧ readInt (s.length + 2) 0 d s = .ok (n, c, r) := by
  obtain ⟨h1, h2⟩ := decimal_spec h
  cases ds with
  | nil => exact absurd rfl hne
  | cons d ds =>
    have hd := h1 d (by simp)
    refine ⟨d, ds ++ c :: r, by rw [List.cons_append, getChar_plain (by omega)], (latin_spec (by omega)).1.2 hd, hd.1, hd.2, ?_⟩
    have := readInt_run (r := r) hc hc2 h92 ds (r.length + 1) 0 d h1 (by rw [h2]; exact hn)
    rw [h2] at this
    rw [← this]
    congr 1
    simp; omega

theorem lexCount_quoted {c : Nat} (h : c = 123 ∨ c = 125) (r : List Nat) :
    lexCount ((0xF000 + c) :: r) = .ok (.letters {c} false, r) := by
  unfold lexCount
  rw [getChar_plain (by omega), ok_bind]
  dsimp only
  rw [control_or (by omega), control_or (by omega), if_pos (by omega), plain_ctl (by omega)]

theorem lexCount_exactly {ds : List Nat} {n : Nat} (h : Decimal ds n) (hne : ds ≠ []) (hn : n < 2 ^ 31) (r : List Nat) :
    lexCount (123 :: (ds ++ 125 :: r)) = .ok (.count n (some n), r) := by
  obtain ⟨d, s, e1, e2, e3, e4, e5⟩ := readInt_ok h hne hn (c := 125) (r := r) (by omega) (by omega) (by omega)
  unfold lexCount
  rw [getChar_plain (by omega), ok_bind]
  dsimp only
  rw [if_neg (by decide), e1, ok_bind]
  dsimp only
  rw [e2, if_neg (by decide), e5, ok_bind]
  rfl

theorem lexCount_atLeast {ds : List Nat} {n : Nat} (h : Decimal ds n) (hne : ds ≠ []) (hn : n < 2 ^ 31) (r : List Nat) :
    lexCount (123 :: (ds ++ 44 :: 125 :: r)) = .ok (.count n none, r) := by
  obtain ⟨d, s, e1, e2, e3, e4, e5⟩ := readInt_ok h hne hn (c := 44) (r := 125 :: r) (by omega) (by omega) (by omega)
  unfold lexCount
  rw [getChar_plain (by omega), ok_bind]
  dsimp only
  rw [if_neg (by decide), e1, ok_bind]
  dsimp only
  rw [e2, if_neg (by decide), e5, ok_bind]
  dsimp only
  rw [if_neg (by decide), if_neg (by decide), getChar_plain (by omega), ok_bind]
  rfl

theorem lexCount_between {ds ds' : List Nat} {n n' : Nat} (h : Decimal ds n) (hne : ds ≠ []) (hn : n < 2 ^ 31) (h' : Decimal ds' n')
    (hne' : ds' ≠ []) (hn' : n' < 2 ^ 31) (r : List Nat) :
    lexCount (123 :: (ds ++ 44 :: (ds' ++ 125 :: r))) = .ok (.count n (some n'), r) := by
  obtain ⟨d, s, e1, e2, e3, e4, e5⟩ := readInt_ok h hne hn (c := 44) (r := ds' ++ 125 :: r) (by omega) (by omega) (by omega)
  obtain ⟨d', s', e1', e2', e3', e4', e5'⟩ := readInt_ok h' hne' hn' (c := 125) (r := r) (by omega) (by omega) (by omega)
  unfold lexCount
  rw [getChar_plain (by omega), ok_bind]
  dsimp only
  rw [if_neg (by decide), e1, ok_bind]
  dsimp only
  rw [e2, if_neg (by decide), e5, ok_bind]
  dsimp only
  rw [if_neg (by decide), if_neg (by decide), e1', ok_bind]
  dsimp only
  rw [if_neg (by omega), e2', if_neg (by decide), e5', ok_bind]
  rfl

/-! ### Bracket expressions -/

theorem inStr_range {c : Nat} (h : c < 256) (h0 : c ≠ 0) : inStr rangeControls c = true ↔ c ∈ [94, 91, 93, 45, 92] := by
  unfold inStr rangeControls
  rw [Nat.mod_eq_of_lt h]
  simp [h0]

theorem correctChar_plain {c : Nat} (h : c ∉ [94, 91, 93, 45, 92]) (h0 : c ≠ 0) (hr : ¬ Reserved c) : correctChar c rangeControls = c := by
  unfold correctChar
  rw [(isControl_false c).2 hr]
  simp only [Bool.false_and, Bool.false_eq_true, if_false]
  split
  · next hc =>
    simp only [Bool.and_eq_true, decide_eq_true_eq] at hc
    rw [Nat.mod_eq_of_lt (by omega)] at hc
    exact absurd ((inStr_range (by omega) h0).1 hc.2) h
  · rfl

theorem correctChar_bare {c : Nat} (h : c ∈ [94, 91, 93, 45, 92]) : correctChar c rangeControls = 0xF000 + c := by
  simp only [List.mem_cons, List.not_mem_nil, or_false] at h
  rcases h with rfl | rfl | rfl | rfl | rfl <;> decide

theorem correctChar_quoted {c : Nat} (h : c ∈ [94, 91, 93, 45, 92]) : correctChar (0xF000 + c) rangeControls = c := by
  simp only [List.mem_cons, List.not_mem_nil, or_false] at h
  rcases h with rfl | rfl | rfl | rfl | rfl <;> decide

theorem correctChar_ctl {c : Nat} (hc : c < 256) (h : c ∉ [94, 91, 93, 45, 92]) (h0 : c ≠ 0) :
    correctChar (0xF000 + c) rangeControls = 0xF000 + c := by
  unfold correctChar
  have e : (0xF000 + c) % 256 = c := by omega
  have e2 : inStr rangeControls c = false := by
    rw [Bool.eq_false_iff]; exact fun hh => h ((inStr_range hc h0).1 hh)
  rw [e, e2]
  simp

theorem correctChar_dash {p : Nat} (h : correctChar p rangeControls = 0xF02D) : p = 45 := by
  unfold correctChar at h
  dsimp only at h
  split at h
  · exfalso
    have := congrArg (fun x => x.testBit 12) h
    simp only [plain, Nat.testBit_and] at this
    rw [show (0xFFFF00FF : Nat).testBit 12 = false by decide, show (0xF02D : Nat).testBit 12 = true by decide, Bool.and_false] at this
    cases this
  · next h1 =>
    split at h
    · next h2 =>
      simp only [Bool.and_eq_true, decide_eq_true_eq] at h2
      have e := control_or (show p < 256 by omega)
      rw [Nat.or_comm] at e
      omega
    · subst h; exact absurd (by decide) h1

theorem usable_low {c : Nat} (h : c < 256) : Usable c := by unfold Usable Reserved; omega

theorem bound_usable {s : List Nat} {c : Nat} (h : Bound s c) : Usable c := by
  cases h with
  | plain _ _ h => exact h
  | quoted h =>
    simp only [List.mem_cons, List.not_mem_nil, or_false] at h
    exact usable_low (by omega)
  | code _ h => exact h

/-- What `rangeItem` does once the first character is known. -/
def rangeRest (first : Nat) (s : List Nat) : Res (Finset Nat × List Nat) := do
  let (_, s) ← getChar s
  let (current, s) ← getChar s
  let (last, s) ←
    (if current = Control ||| 120 then readUnicode (ungetChar current s)
    else
      let last := correctChar current rangeControls
      if isControl last then Res.throws else Res.ok (last, s) : Res (Nat × List Nat))
  if last ≥ 2 ^ 32 - 1 ∧ first ≤ last then .bad
  else .ok (Finset.Icc first last, s)

theorem usable_ne_ctl {c d : Nat} (h : Usable c) (hd : d < 256) : c ≠ 0xF000 + d := by
  rintro rfl
  exact h.1 (by unfold Reserved; omega)

theorem rangeItem_plain {c : Nat} (h : Usable c) (s : List Nat) :
    rangeItem c s = if correctChar (peekChar s) rangeControls = 0xF02D then rangeRest c s else .ok ({c}, s) := by
  have hc : isControl c = false := (isControl_false c).2 h.1
  have n1 : c ≠ Control ||| 120 := by rw [control_or (by omega)]; exact usable_ne_ctl h (by omega)
  have n2 : c ≠ Control ||| 45 := by rw [control_or (by omega)]; exact usable_ne_ctl h (by omega)
  unfold rangeItem
  rw [if_neg n1, ok_bind]
  dsimp only
  rw [hc, control_or (c := 45) (by omega)]
  by_cases hp : correctChar (peekChar s) rangeControls = 0xF000 + 45
  · rw [if_pos (by simp [hp]), if_pos hp]
    rfl
  · rw [if_neg (by simp [hp]), if_neg hp, if_neg (by rw [control_or (by omega)] at n2; exact n2), if_neg (by simp), if_pos (by simp)]
    simp

theorem rangeItem_code {t : List Nat} {c : Nat} (h : CharCode t c) {r : List Nat} (hr : Tame r) :
    ∃ t' r', t = 92 :: 120 :: t' ∧ Same r' r ∧ rangeItem (0xF000 + 120) (t' ++ r) =
      if correctChar (peekChar r') rangeControls = 0xF02D then rangeRest c r' else .ok ({c}, r') := by
  obtain ⟨t', e1, r', e2, e3⟩ := readUnicode_ok h hr
  refine ⟨t', r', e1, e3, ?_⟩
  unfold rangeItem
  rw [control_or (c := 120) (by omega), if_pos rfl, ungetChar, if_neg (by decide), e2, ok_bind, ok_bind]
  dsimp only
  rw [control_or (c := 45) (by omega)]
  by_cases hp : correctChar (peekChar r') rangeControls = 0xF000 + 45
  · rw [if_pos (by simp [hp]), if_pos hp]
    rfl
  · rw [if_neg (by simp [hp]), if_neg hp, if_neg (by omega), if_neg (by decide), if_pos (by decide)]
    simp

/-- A character that may start a range. -/
theorem bound_start {s : List Nat} {c : Nat} (h : Bound s c) {r : List Nat} (hr : Tame r) :
    ∃ ch s1 r', getChar (s ++ r) = .ok (ch, s1) ∧
      correctChar ch rangeControls ≠ 0xF0FF ∧ correctChar ch rangeControls ≠ 0xF05D ∧ correctChar ch rangeControls ≠ 0xF05E ∧ Same r' r ∧
      rangeItem (correctChar ch rangeControls) s1 =
        if correctChar (peekChar r') rangeControls = 0xF02D then rangeRest c r' else .ok ({c}, r') := by
  have hu := bound_usable h
  have n : ∀ d < 256, c ≠ 0xF000 + d := fun d hd => usable_ne_ctl hu hd
  cases h with
  | plain h1 h2 h3 =>
    have e := correctChar_plain h1 h2 h3.1
    refine ⟨c, r, r, getChar_plain (by intro h; simp [h] at h1), ?_, ?_, ?_, .refl _, ?_⟩
    · rw [e]; exact n 255 (by omega)
    · rw [e]; exact n 93 (by omega)
    · rw [e]; exact n 94 (by omega)
    · rw [e]; exact rangeItem_plain hu r
  | quoted h =>
    have e := correctChar_quoted h
    have : c < 256 := by
      simp only [List.mem_cons, List.not_mem_nil, or_false] at h
      omega
    refine ⟨0xF000 + c, r, r, getChar_quoted this, ?_, ?_, ?_, .refl _, ?_⟩
    · rw [e]; exact n 255 (by omega)
    · rw [e]; exact n 93 (by omega)
    · rw [e]; exact n 94 (by omega)
    · rw [e]; exact rangeItem_plain hu r
  | code h _ =>
    obtain ⟨t', r', e1, e2, e3⟩ := rangeItem_code h hr
    have e : correctChar (0xF000 + 120) rangeControls = 0xF000 + 120 := by decide
    refine ⟨0xF000 + 120, t' ++ r, r', ?_, ?_, ?_, ?_, e2, ?_⟩
    · rw [e1]; exact getChar_quoted (by omega)
    all_goals rw [e]
    · omega
    · omega
    · omega
    · exact e3

theorem bound_end {s : List Nat} {c : Nat} (h : Bound s c) {r : List Nat} (hr : Tame r) {x : Nat} :
    ∃ r', Same r' r ∧ rangeRest x (45 :: (s ++ r)) = .ok (Finset.Icc x c, r') := by
  have hu := bound_usable h
  have hlim : ¬ (c ≥ 2 ^ 32 - 1 ∧ x ≤ c) := by have := hu.2; omega
  unfold rangeRest
  rw [getChar_plain (by omega), ok_bind]
  dsimp only
  cases h with
  | plain h1 h2 h3 =>
    refine ⟨r, .refl r, ?_⟩
    rw [List.cons_append, List.nil_append, getChar_plain (by intro h; simp [h] at h1), ok_bind]
    dsimp only
    rw [control_or (by omega), if_neg (usable_ne_ctl hu (by omega)), correctChar_plain h1 h2 h3.1, (isControl_false c).2 h3.1,
      if_neg (by decide), ok_bind]
    dsimp only
    rw [if_neg hlim]
  | quoted h =>
    have hc : c < 256 := by
      simp only [List.mem_cons, List.not_mem_nil, or_false] at h
      omega
    refine ⟨r, .refl r, ?_⟩
    rw [List.cons_append, List.cons_append, List.nil_append, getChar_quoted hc, ok_bind]
    dsimp only
    have : 0xF000 + c ≠ 0xF000 + 120 := by
      simp only [List.mem_cons, List.not_mem_nil, or_false] at h
      omega
    rw [control_or (by omega), if_neg this, correctChar_quoted h, (isControl_false c).2 hu.1, if_neg (by decide), ok_bind]
    dsimp only
    rw [if_neg hlim]
  | code h _ =>
    obtain ⟨t', e1, r', e2, e3⟩ := readUnicode_ok h hr
    refine ⟨r', e3, ?_⟩
    rw [e1, List.cons_append, List.cons_append, getChar_quoted (by omega), ok_bind]
    dsimp only
    rw [control_or (by omega), if_pos rfl, ungetChar, if_neg (by decide), e2, ok_bind]
    dsimp only
    rw [if_neg hlim]

theorem charClass_low {n : Nat} {k : Finset Nat} (h : charClass n = some k) : n ∈ [108, 99, 119, 100, 115, 110, 114, 116] := by
  unfold charClass at h
  by_contra hn
  simp only [List.mem_cons, List.not_mem_nil, or_false, not_or] at hn
  simp [hn] at h

theorem bound_tame {s : List Nat} {c : Nat} (h : Bound s c) (r : List Nat) : Tame (s ++ r) := by
  cases h with
  | plain h1 h2 h3 => exact .plain (by intro h; simp [h] at h1) (usable_ne_ctl (d := 255) h3 (by omega))
  | quoted h =>
    simp only [List.mem_cons, List.not_mem_nil, or_false] at h
    exact .quoted (by omega)
  | code h _ =>
    cases h with
    | two _ _ => exact .quoted (by omega)
    | braces _ _ _ => exact .quoted (by omega)

theorem bound_head {s : List Nat} {c : Nat} (h : Bound s c) (r : List Nat) : (s ++ r).head? ≠ some 45 := by
  cases h with
  | plain h1 h2 h3 => intro h; simp only [List.cons_append, List.nil_append, List.head?_cons, Option.some.injEq] at h; simp [h] at h1
  | quoted h => simp
  | code h _ => cases h <;> simp

theorem items_tame {fl : Flavor} {b : Bool} {t : List Nat} {cs : Finset Nat} (h : Items fl b t cs) (r : List Nat) : Tame (t ++ 93 :: r) := by
  cases h with
  | nil => exact .plain (by omega) (by decide)
  | dash _ => exact .plain (by omega) (by decide)
  | single h _ => rw [List.append_assoc]; exact bound_tame h _
  | range h _ _ _ => rw [List.append_assoc]; exact bound_tame h _
  | quoted h _ =>
    simp only [List.mem_cons, List.not_mem_nil, or_false] at h
    exact .quoted (by omega)
  | bare h _ =>
    simp only [List.mem_cons, List.not_mem_nil, or_false] at h
    exact .plain (by omega) (by simp only [End]; omega)
  | cls h _ =>
    have h := charClass_low h
    simp only [List.mem_cons, List.not_mem_nil, or_false] at h
    exact .quoted (by omega)

theorem items_head {fl : Flavor} {t : List Nat} {cs : Finset Nat} (h : Items fl false t cs) (r : List Nat) :
    (t ++ 93 :: r).head? ≠ some 45 := by
  cases h with
  | nil => simp
  | single h _ => rw [List.append_assoc]; exact bound_head h _
  | range h _ _ _ => rw [List.append_assoc]; exact bound_head h _
  | quoted h _ => simp
  | bare h _ =>
    simp only [List.mem_cons, List.not_mem_nil, or_false] at h
    rcases h with rfl | rfl <;> simp
  | cls h _ => simp

theorem not_dash {r r' : List Nat} (h : Same r' r) (hr : r.head? ≠ some 45) : correctChar (peekChar r') rangeControls ≠ 0xF02D := by
  intro hc
  have := correctChar_dash hc
  rcases h with rfl | ⟨ch, s, -, rfl, rfl⟩
  · cases r' with
    | nil => cases this
    | cons c r' => simp [peekChar] at this; exact hr (by simp [this])
  · simp [peekChar] at this; omega

/-- The characters standing for an element of a set built by the lexer. -/
def meaning (fl : Flavor) (c : Nat) : Finset Nat := if Reserved c then (charClass (c - 0xF000)).getD ∅ else fl.fold c

/-- The set the lexer collects and the set it stands for. -/
structure RawOk (fl : Flavor) (raw cs : Finset Nat) : Prop where
  elem : ∀ c ∈ raw, Usable c ∨ ∃ n k, charClass n = some k ∧ c = 0xF000 + n
  eq : raw.biUnion (meaning fl) = cs

theorem RawOk.union {fl : Flavor} {r r' c c' : Finset Nat} (h : RawOk fl r c) (h' : RawOk fl r' c') : RawOk fl (r ∪ r') (c ∪ c') :=
  ⟨fun x hx => (Finset.mem_union.1 hx).elim (h.elem x) (h'.elem x), by rw [Finset.union_biUnion, h.eq, h'.eq]⟩

theorem meaning_usable {fl : Flavor} {c : Nat} (h : Usable c) : meaning fl c = fl.fold c := by rw [meaning, if_neg h.1]

theorem RawOk.usable {fl : Flavor} {c : Nat} (h : Usable c) : RawOk fl {c} (fl.fold c) :=
  ⟨fun x hx => by rw [Finset.mem_singleton.1 hx]; exact .inl h, by rw [Finset.singleton_biUnion, meaning_usable h]⟩

theorem RawOk.empty {fl : Flavor} : RawOk fl ∅ ∅ := ⟨fun x hx => by simp at hx, by simp⟩

theorem RawOk.cls {fl : Flavor} {n : Nat} {k : Finset Nat} (h : charClass n = some k) : RawOk fl {0xF000 + n} k := by
  have hn := charClass_low h
  simp only [List.mem_cons, List.not_mem_nil, or_false] at hn
  refine ⟨fun x hx => ?_, ?_⟩
  · rw [Finset.mem_singleton.1 hx]; exact .inr ⟨n, k, h, rfl⟩
  · rw [Finset.singleton_biUnion, meaning, if_pos (by unfold Reserved; omega), Nat.add_sub_cancel_left, h]; rfl

/-- Escaped or bare special characters and classes do not begin a range. -/
theorem rangeItem_ctl {c : Nat} (hc : c < 256) (h45 : c ≠ 45) (h120 : c ≠ 120) (s : List Nat) :
    rangeItem (0xF000 + c) s = .ok ({if inStr rangeControls2 c || inStr rangeControls c then c else 0xF000 + c}, s) := by
  unfold rangeItem
  rw [control_or (by omega), control_or (by omega), if_neg (by omega), ok_bind]
  dsimp only
  rw [isControl_ctl hc, if_neg (by simp), if_neg (by omega), plain_ctl hc]
  by_cases h1 : (inStr rangeControls2 c || inStr rangeControls c) = true
  · rw [if_pos (by rw [h1]; rfl), if_pos h1]
  · rw [if_neg (by rw [Bool.true_and]; exact h1), if_neg h1, if_pos]
    · simp
    · simp only [Bool.or_eq_true, not_or] at h1
      simp [h1.2]

theorem rangeItem_dash (s : List Nat) : rangeItem (0xF000 + 45) s = .ok ({45}, s) := by
  unfold rangeItem
  rw [control_or (by omega), control_or (by omega), if_neg (by omega), ok_bind]
  dsimp only
  rw [isControl_ctl (by omega), if_neg (by simp), if_pos rfl]

theorem rangeLoop_step {fuel ch : Nat} {s : List Nat} {acc new : Finset Nat} {s' r : List Nat} {ch' : Nat} {s1 : List Nat}
    (h1 : ch ≠ 0xF0FF) (h2 : ch ≠ 0xF05D) (h3 : rangeItem ch s = .ok (new, s')) (h4 : Same s' r) (h5 : getChar r = .ok (ch', s1)) :
    rangeLoop (fuel + 1) ch s acc = rangeLoop fuel (correctChar ch' rangeControls) s1 (acc ∪ new) := by
  rw [rangeLoop, if_neg h1, control_or (by omega), if_neg h2, h3, ok_bind]
  dsimp only
  rw [h4.getChar, h5, ok_bind]

theorem rangeLoop_items {fl : Flavor} {b : Bool} {t : List Nat} {cs : Finset Nat} (h : Items fl b t cs) :
    ∀ (fuel : Nat) (acc : Finset Nat) (rest : List Nat), t.length < fuel → ∃ ch s1 raw, getChar (t ++ 93 :: rest) = .ok (ch, s1) ∧
      rangeLoop fuel (correctChar ch rangeControls) s1 acc = .ok (acc ∪ raw, rest) ∧ RawOk fl raw cs := by
  induction h with
  | nil =>
    intro fuel acc rest hf
    obtain ⟨fuel, rfl⟩ := Nat.exists_eq_succ_of_ne_zero (show fuel ≠ 0 by omega)
    refine ⟨93, rest, ∅, getChar_plain (by omega), ?_, .empty⟩
    rw [correctChar_bare (by decide), Finset.union_empty, Nat.succ_eq_add_one, rangeLoop, control_or (by omega), if_neg (by decide), if_pos rfl]
  | @dash t cs h ih =>
    intro fuel acc rest hf
    obtain ⟨fuel, rfl⟩ := Nat.exists_eq_succ_of_ne_zero (show fuel ≠ 0 by omega)
    obtain ⟨ch, s1, raw, e1, e2, e3⟩ := ih fuel (acc ∪ {45}) rest (by simp at hf; omega)
    refine ⟨45, t ++ 93 :: rest, {45} ∪ raw, getChar_plain (by omega), ?_, (RawOk.usable (usable_low (by omega))).union e3⟩
    rw [correctChar_bare (by decide), rangeLoop_step (by decide) (by decide) (rangeItem_dash _) (.refl _) e1, e2, Finset.union_assoc]
  | @single b s c t cs hb h ih =>
    intro fuel acc rest hf
    obtain ⟨fuel, rfl⟩ := Nat.exists_eq_succ_of_ne_zero (show fuel ≠ 0 by omega)
    have hl : s.length ≠ 0 := by cases hb with
      | plain _ _ _ => simp
      | quoted _ => simp
      | code h _ => cases h <;> simp
    obtain ⟨ch, s1, raw, e1, e2, e3⟩ := ih fuel (acc ∪ {c}) rest (by simp at hf; omega)
    obtain ⟨ch', s1', r', b1, b2, b3, -, b4, b5⟩ := bound_start hb (items_tame h rest)
    rw [if_neg (not_dash b4 (items_head h rest))] at b5
    refine ⟨ch', s1', {c} ∪ raw, by rw [List.append_assoc]; exact b1, ?_, (RawOk.usable (bound_usable hb)).union e3⟩
    rw [rangeLoop_step b2 b3 b5 b4 e1, e2, Finset.union_assoc]
  | @range b s x s' y t cs hx hy hu h ih =>
    intro fuel acc rest hf
    obtain ⟨fuel, rfl⟩ := Nat.exists_eq_succ_of_ne_zero (show fuel ≠ 0 by omega)
    obtain ⟨ch, s1, raw, e1, e2, e3⟩ := ih fuel (acc ∪ Finset.Icc x y) rest (by simp at hf; omega)
    obtain ⟨ch', s1', r', b1, b2, b3, -, b4, b5⟩ := bound_start hx (r := 45 :: (s' ++ (t ++ 93 :: rest))) (.plain (by omega) (by decide))
    obtain ⟨r2, c1, c2⟩ := bound_end hy (x := x) (items_tame h rest)
    have hr' : r' = 45 :: (s' ++ (t ++ 93 :: rest)) := by
      rcases b4 with h | ⟨_, _, _, h, _⟩
      · exact h
      · cases h
    subst hr'
    rw [if_pos (show correctChar (peekChar (45 :: (s' ++ (t ++ 93 :: rest)))) rangeControls = 0xF02D from (by decide : correctChar 45 rangeControls = 0xF02D)), c2] at b5
    refine ⟨ch', s1', Finset.Icc x y ∪ raw, by simpa using b1, ?_, .union ⟨?_, ?_⟩ e3⟩
    · rw [rangeLoop_step b2 b3 b5 c1 e1, e2, Finset.union_assoc]
    · intro c hc
      rw [Finset.mem_Icc] at hc
      exact .inl (hu c hc.1 hc.2)
    · exact Finset.biUnion_congr rfl fun c hc => by rw [Finset.mem_Icc] at hc; exact meaning_usable (hu c hc.1 hc.2)
  | @quoted b c t cs hc h ih =>
    intro fuel acc rest hf
    obtain ⟨fuel, rfl⟩ := Nat.exists_eq_succ_of_ne_zero (show fuel ≠ 0 by omega)
    obtain ⟨ch, s1, raw, e1, e2, e3⟩ := ih fuel (acc ∪ {c}) rest (by simp at hf; omega)
    have hs : inStr rangeControls2 c = true ∧ c < 256 ∧ c ≠ 45 ∧ c ≠ 120 ∧ c ∉ [94, 91, 93, 45, 92] ∧ c ≠ 0 ∧ c ≠ 255 ∧ c ≠ 93 := by
      simp only [List.mem_cons, List.not_mem_nil, or_false] at hc
      rcases hc with rfl | rfl | rfl | rfl | rfl | rfl | rfl | rfl | rfl | rfl | rfl <;> decide
    obtain ⟨h1, h2, h3, h4, h5, h6, h7, h8⟩ := hs
    have hi := rangeItem_ctl h2 h3 h4 (t ++ 93 :: rest)
    rw [h1, Bool.true_or, if_pos rfl] at hi
    refine ⟨0xF000 + c, t ++ 93 :: rest, {c} ∪ raw, getChar_quoted h2, ?_, (RawOk.usable (usable_low h2)).union e3⟩
    rw [correctChar_ctl h2 h5 h6, rangeLoop_step (by omega) (by omega) hi (.refl _) e1, e2, Finset.union_assoc]
  | @bare b c t cs hc h ih =>
    intro fuel acc rest hf
    obtain ⟨fuel, rfl⟩ := Nat.exists_eq_succ_of_ne_zero (show fuel ≠ 0 by omega)
    obtain ⟨ch, s1, raw, e1, e2, e3⟩ := ih fuel (acc ∪ {c}) rest (by simp at hf; omega)
    have hs : inStr rangeControls c = true ∧ c < 256 ∧ c ≠ 45 ∧ c ≠ 120 ∧ c ∈ [94, 91, 93, 45, 92] ∧ c ≠ 92 ∧ c ≠ 255 ∧ c ≠ 93 := by
      simp only [List.mem_cons, List.not_mem_nil, or_false] at hc
      rcases hc with rfl | rfl <;> decide
    obtain ⟨h1, h2, h3, h4, h5, h6, h7, h8⟩ := hs
    have hi := rangeItem_ctl h2 h3 h4 (t ++ 93 :: rest)
    rw [h1, Bool.or_true, if_pos rfl] at hi
    refine ⟨c, t ++ 93 :: rest, {c} ∪ raw, getChar_plain h6, ?_, (RawOk.usable (usable_low h2)).union e3⟩
    rw [correctChar_bare h5, rangeLoop_step (by omega) (by omega) hi (.refl _) e1, e2, Finset.union_assoc]
  | @cls b n k t cs hn h ih =>
    intro fuel acc rest hf
    obtain ⟨fuel, rfl⟩ := Nat.exists_eq_succ_of_ne_zero (show fuel ≠ 0 by omega)
    obtain ⟨ch, s1, raw, e1, e2, e3⟩ := ih fuel (acc ∪ {0xF000 + n}) rest (by simp at hf; omega)
    have hs : (inStr rangeControls2 n || inStr rangeControls n) = false ∧ n < 256 ∧ n ≠ 45 ∧ n ≠ 120 ∧ n ∉ [94, 91, 93, 45, 92] ∧ n ≠ 0 ∧
        n ≠ 255 ∧ n ≠ 93 := by
      have hc := charClass_low hn
      simp only [List.mem_cons, List.not_mem_nil, or_false] at hc
      rcases hc with rfl | rfl | rfl | rfl | rfl | rfl | rfl | rfl <;> decide
    obtain ⟨h1, h2, h3, h4, h5, h6, h7, h8⟩ := hs
    have hi := rangeItem_ctl h2 h3 h4 (t ++ 93 :: rest)
    rw [h1, if_neg (by decide)] at hi
    refine ⟨0xF000 + n, t ++ 93 :: rest, {0xF000 + n} ∪ raw, getChar_quoted h2, ?_, (RawOk.cls hn).union e3⟩
    rw [correctChar_ctl h2 h5 h6, rangeLoop_step (by omega) (by omega) hi (.refl _) e1, e2, Finset.union_assoc]

theorem correctChar_hat {p : Nat} (h : correctChar p rangeControls = 0xF05E) : p = 94 := by
  unfold correctChar at h
  dsimp only at h
  split at h
  · exfalso
    have := congrArg (fun x => x.testBit 12) h
    simp only [plain, Nat.testBit_and] at this
    rw [show (0xFFFF00FF : Nat).testBit 12 = false by decide, show (0xF05E : Nat).testBit 12 = true by decide, Bool.and_false] at this
    cases this
  · next h1 =>
    split at h
    · next h2 =>
      simp only [Bool.and_eq_true, decide_eq_true_eq] at h2
      have e := control_or (show p < 256 by omega)
      rw [Nat.or_comm] at e
      omega
    · subst h; exact absurd (by decide) h1

theorem getChar_length {s : List Nat} {c : Nat} {s1 : List Nat} (h : getChar s = .ok (c, s1)) : s.length ≤ s1.length + 2 := by
  unfold getChar at h
  split at h
  · cases h; simp
  · split at h
    · split at h
      · cases h
      · cases h; simp
    · cases h; simp

theorem getChar_hat {s s1 : List Nat} (h : getChar s = .ok (94, s1)) : s.head? = some 94 := by
  unfold getChar at h
  split at h
  · cases h
  · split at h
    · split at h
      · cases h
      · next ch _ _ =>
        exfalso
        simp only [Res.ok.injEq, Prod.mk.injEq] at h
        have := congrArg (fun x => x.testBit 12) h.1
        simp only [Nat.testBit_or] at this
        rw [show Nat.testBit Control 12 = true by decide, show Nat.testBit 94 12 = false by decide, Bool.true_or] at this
        cases this
    · cases h; rfl

theorem lexRange_quoted {c : Nat} (h : c = 91 ∨ c = 93) (r : List Nat) : lexRange ((0xF000 + c) :: r) = .ok (.letters {c} false, r) := by
  unfold lexRange
  rw [getChar_plain (by omega), ok_bind]
  dsimp only
  rw [correctChar_quoted (by rcases h with rfl | rfl <;> decide), if_pos h]

theorem lexRange_items {fl : Flavor} {t : List Nat} {cs : Finset Nat} (h : Items fl true t cs) (hh : t.head? ≠ some 94) (r : List Nat) :
    ∃ raw, lexRange (91 :: (t ++ 93 :: r)) = .ok (.letters raw false, r) ∧ RawOk fl raw cs := by
  have hlen := fun {c s1} (h : getChar (t ++ 93 :: r) = .ok (c, s1)) => getChar_length h
  obtain ⟨ch, s1, raw, e1, -, -⟩ := rangeLoop_items h (t.length + 1) ∅ r (by omega)
  have hl := getChar_length e1
  simp only [List.length_append, List.length_cons] at hl
  obtain ⟨ch', s1', raw, e1', e2, e3⟩ := rangeLoop_items h (s1.length + 2) ∅ r (by omega)
  rw [e1] at e1'
  cases e1'
  refine ⟨raw, ?_, e3⟩
  have hhat : correctChar ch rangeControls ≠ 0xF05E := by
    intro hc
    have := correctChar_hat hc
    subst this
    have := getChar_hat e1
    cases t with
    | nil => simp at this
    | cons c t => exact hh (by simpa using this)
  unfold lexRange
  rw [getChar_plain (by omega), ok_bind]
  dsimp only
  rw [correctChar_bare (by decide), if_neg (by omega), e1, ok_bind]
  dsimp only
  rw [control_or (by omega), if_neg hhat, e2, ok_bind, Finset.empty_union]

theorem lexRange_not_items {fl : Flavor} {t : List Nat} {cs : Finset Nat} (h : Items fl true t cs) (r : List Nat) :
    ∃ raw, lexRange (91 :: 94 :: (t ++ 93 :: r)) = .ok (.letters raw true, r) ∧ RawOk fl raw cs := by
  obtain ⟨ch, s1, raw, e1, -, -⟩ := rangeLoop_items h (t.length + 1) ∅ r (by omega)
  have hl := getChar_length e1
  simp only [List.length_append, List.length_cons] at hl
  obtain ⟨ch', s1', raw, e1', e2, e3⟩ := rangeLoop_items h (s1.length + 2) ∅ r (by omega)
  rw [e1] at e1'
  cases e1'
  refine ⟨raw, ?_, e3⟩
  unfold lexRange
  rw [getChar_plain (by omega), ok_bind]
  dsimp only
  rw [correctChar_bare (by decide), if_neg (by omega), getChar_plain (by omega), ok_bind]
  dsimp only
  rw [control_or (by omega), if_pos (by decide), e1, ok_bind]
  dsimp only
  rw [e2, ok_bind, Finset.empty_union]

/-! ### Tokens -/

/-- The features `F` implement the syntax `fl`. -/
structure Implements (F : List Feature) (fl : Flavor) : Prop where
  range : Feature.charRange ∈ F
  rep : Feature.repetition ∈ F
  uni : Feature.unicode ∈ F
  andNot : Feature.andNot ∈ F ↔ fl.andNot = true
  alter : ∀ {raw cs} neg, RawOk fl raw cs → alterAll F raw neg = .ok (fl.widen cs, neg)
  alterNot : ∀ {n k}, charClass n = some k → alterAll F {0xF000 + (n - 32)} false = .ok (fl.widen k, true)
  clean : ∀ {raw cs}, RawOk fl raw cs → ∀ c ∈ fl.widen cs, ¬ Reserved c

variable {F : List Feature} {fl : Flavor}

theorem doLex_eq {s : List Nat} {c : Nat} {s1 : List Nat} (hg : getChar s = .ok (c, s1)) (hc : c ≠ End) :
    doLex F s = ((F.findSome? fun f => f.lex c (c :: s1)).getD (lexBuiltin (c :: s1)) >>= fun x => .ok (some x)) := by
  unfold doLex
  rw [hg, ok_bind]
  dsimp only
  rw [ungetChar, if_neg hc]
  change (if c = End then _ else _) = _
  rw [if_neg hc]
  rfl

theorem findSome_one {f : Feature} (hf : f ∈ F) {c : Nat} {s : List Nat} {r : Res (Tok × List Nat)} (h : f.lex c s = some r)
    (hu : ∀ g : Feature, g ≠ f → g.lex c s = none) : F.findSome? (fun f => f.lex c s) = some r := by
  induction F with
  | nil => cases hf
  | cons g F ih =>
    rw [List.findSome?_cons]
    by_cases hg : g = f
    · subst hg; rw [h]
    · rw [hu g hg]
      exact ih ((List.mem_cons.1 hf).resolve_left (Ne.symm hg))

theorem findSome_none {c : Nat} {s : List Nat} (h : ∀ g ∈ F, g.lex c s = none) : F.findSome? (fun f => f.lex c s) = none := by
  rw [List.findSome?_eq_none_iff]; exact h

theorem doLex_feature {s : List Nat} {c : Nat} {s1 : List Nat} {t : Tok} {r : List Nat} (hg : getChar s = .ok (c, s1)) (hc : c ≠ End)
    {f : Feature} (hf : f ∈ F) (h : f.lex c (c :: s1) = some (.ok (t, r))) (hu : ∀ g : Feature, g ≠ f → g.lex c (c :: s1) = none) :
    doLex F s = .ok (some (t, r)) := by
  rw [doLex_eq hg hc, findSome_one hf h hu]; rfl

theorem doLex_builtin {s : List Nat} {c : Nat} {s1 : List Nat} {t : Tok} {r : List Nat} (hg : getChar s = .ok (c, s1)) (hc : c ≠ End)
    (hn : ∀ g ∈ F, g.lex c (c :: s1) = none) (h : lexBuiltin (c :: s1) = .ok (t, r)) : doLex F s = .ok (some (t, r)) := by
  rw [doLex_eq hg hc, findSome_none hn]
  change (lexBuiltin (c :: s1) >>= _) = _
  rw [h]; rfl

theorem lex_letters {s : List Nat} {raw cs : Finset Nat} {neg : Bool} {r : List Nat} (hi : Implements F fl)
    (h : doLex F s = .ok (some (.letters raw neg, r))) (hr : RawOk fl raw cs) :
    lex F s = .ok (some (.letters (fl.widen cs) neg, r)) := by
  unfold lex
  rw [h, ok_bind]
  dsimp only
  rw [hi.alter neg hr, ok_bind]
  dsimp only
  rw [if_neg]
  rintro ⟨c, hc⟩
  rw [Finset.mem_filter, isControl_iff] at hc
  exact hi.clean hr c hc.1 hc.2

theorem lex_other {s : List Nat} {t : Tok} {r : List Nat} (h : doLex F s = .ok (some (t, r))) (ht : ∀ cs neg, t ≠ .letters cs neg) :
    lex F s = .ok (some (t, r)) := by
  unfold lex
  rw [h, ok_bind]
  cases t with
  | letters cs neg => exact absurd rfl (ht cs neg)
  | _ => rfl

/-- What the features do not accept. -/
theorem lex_none {c : Nat} (h1 : c ≠ 91 ∧ c ≠ 0xF05B ∧ c ≠ 0xF05D) (h2 : c ≠ 123 ∧ c ≠ 0xF07B ∧ c ≠ 0xF07D) (h3 : c ≠ 0xF078)
    {g : Feature} (h4 : g = .andNot → c ≠ 38 ∧ c ≠ 126 ∧ c ≠ 0xF026 ∧ c ≠ 0xF07E) (s : List Nat) : g.lex c s = none := by
  cases g with
  | charRange => unfold Feature.lex; dsimp only; rw [control_or (by omega), control_or (by omega), if_neg (by omega)]
  | repetition => unfold Feature.lex; dsimp only; rw [control_or (by omega), control_or (by omega), if_neg (by omega)]
  | unicode => unfold Feature.lex; dsimp only; rw [control_or (by omega), if_neg (by omega)]
  | andNot =>
    have := h4 rfl
    unfold Feature.lex; dsimp only; rw [control_or (by omega), control_or (by omega), if_neg (by omega)]
  | charClasses => rfl
  | caseInsensitive => rfl
  | glyphs => rfl

theorem lexBuiltin_plain {c : Nat} (h : c ∉ [124, 40, 41, 46, 42, 43, 63, 94, 36, 92]) (hr : ¬ Reserved c) (s : List Nat) :
    lexBuiltin (c :: s) = .ok (.letters {c} false, s) := by
  simp only [List.mem_cons, List.not_mem_nil, or_false, not_or] at h
  unfold lexBuiltin
  rw [getChar_plain (by omega), ok_bind]
  dsimp only
  rw [(isControl_false c).2 hr]
  simp [h]

theorem lexBuiltin_ctl {c : Nat} (h : c < 256) (s : List Nat) :
    lexBuiltin ((0xF000 + c) :: s) = .ok (.letters {if inStr controls c then c else 0xF000 + c} false, s) := by
  unfold lexBuiltin
  rw [getChar_plain (by omega), ok_bind]
  dsimp only
  rw [isControl_ctl h, plain_ctl h]
  rw [if_neg (by omega), if_neg (by omega), if_neg (by omega), if_neg (by omega), if_neg (by omega), if_neg (by omega), if_neg (by omega),
    if_neg (by omega), if_neg (by omega), Bool.true_and]
  split <;> rfl

theorem charClass_capital {n : Nat} {k : Finset Nat} (h : charClass n = some k) : n - 32 ∈ [76, 67, 87, 68, 83, 78, 82, 84] := by
  have h := charClass_low h
  simp only [List.mem_cons, List.not_mem_nil, or_false] at h ⊢
  omega

theorem lexAndNot_quoted {c : Nat} (h : c = 38 ∨ c = 126) (r : List Nat) : lexAndNot ((0xF000 + c) :: r) = .ok (.letters {c} false, r) := by
  unfold lexAndNot
  rw [getChar_plain (by omega), ok_bind]
  dsimp only
  rw [control_or (by omega), control_or (by omega), if_pos (by omega), plain_ctl (by omega)]

/-- A piece of text is read as the token it stands for. -/
theorem written_lex (hi : Implements F fl) {t : List Nat} {tok : Tok} (h : Written fl t tok) {r : List Nat} (hr : Tame r) :
    ∃ r', Same r' r ∧ lex F (t ++ r) = .ok (some (tok, r')) := by
  have noAN : fl.andNot = false → ∀ g ∈ F, g ≠ .andNot := by
    rintro h g hg rfl
    rw [hi.andNot, h] at hg
    cases hg
  -- an operator made of one character
  have op : ∀ (c : Nat) (tok : Tok), c ∈ [124, 40, 41, 46, 42, 43, 63, 94, 36] → (∀ cs neg, tok ≠ .letters cs neg) →
      lexBuiltin (c :: r) = .ok (tok, r) → ∃ r', Same r' r ∧ lex F ([c] ++ r) = .ok (some (tok, r')) := by
    intro c tok hc ht hb
    simp only [List.mem_cons, List.not_mem_nil, or_false] at hc
    refine ⟨r, .refl r, lex_other (doLex_builtin (getChar_plain (by omega)) (by simp only [End]; omega) (fun g hg => ?_) hb) ht⟩
    exact lex_none (by omega) (by omega) (by omega) (fun _ => by omega) _
  cases h with
  | @plain c hc hu =>
    have n : ∀ d < 256, c ≠ 0xF000 + d := fun d hd => usable_ne_ctl hu hd
    simp only [Flavor.special, List.mem_append, not_or] at hc
    refine ⟨r, .refl r, lex_letters hi (raw := {c}) (cs := fl.fold c) (doLex_builtin (getChar_plain ?_) ?_ (fun g hg => ?_) (lexBuiltin_plain ?_ hu.1 r)) (.usable hu)⟩
    · intro h; simp [h] at hc
    · exact n 255 (by omega)
    · refine lex_none ⟨?_, n 91 (by omega), n 93 (by omega)⟩ ⟨?_, n 123 (by omega), n 125 (by omega)⟩ (n 120 (by omega)) (fun hg' => ?_) _
      · intro h; simp [h] at hc
      · intro h; simp [h] at hc
      · have : fl.andNot = true := hi.andNot.1 (hg' ▸ hg)
        rw [this] at hc
        simp only [if_true, List.mem_cons, List.not_mem_nil, or_false, not_or] at hc
        exact ⟨hc.2.1, hc.2.2, n 38 (by omega), n 126 (by omega)⟩
    · intro h
      apply hc.1
      simp only [List.mem_cons, List.not_mem_nil, or_false] at h ⊢
      omega
  | @quoted c hc =>
    simp only [Flavor.quotable, Flavor.special, List.mem_append] at hc
    have hcases : c ∈ [124, 40, 41, 46, 42, 43, 63, 94, 36, 92] ∨ (c = 91 ∨ c = 93) ∨ (c = 123 ∨ c = 125) ∨ (fl.andNot = true ∧ (c = 38 ∨ c = 126)) := by
      rcases hc with (hc | hc) | hc
      · simp only [List.mem_cons, List.not_mem_nil, or_false] at hc ⊢; omega
      · cases ha : fl.andNot with
        | false => rw [ha] at hc; simp at hc
        | true => rw [ha] at hc; simp only [if_true, List.mem_cons, List.not_mem_nil, or_false] at hc; exact .inr (.inr (.inr ⟨rfl, hc⟩))
      · simp only [List.mem_cons, List.not_mem_nil, or_false] at hc ⊢; omega
    have hlow : c < 255 := by
      simp only [List.mem_cons, List.not_mem_nil, or_false] at hcases; omega
    have hu : Usable c := usable_low (by omega)
    have hgc : getChar ([92, c] ++ r) = .ok (0xF000 + c, r) := getChar_quoted (by omega)
    have hE : 0xF000 + c ≠ End := by simp only [End]; omega
    refine ⟨r, .refl r, lex_letters hi (raw := {c}) (cs := fl.fold c) ?_ (.usable hu)⟩
    rcases hcases with h | h | h | ⟨ha, h⟩
    · refine doLex_builtin hgc hE (fun g hg => ?_) ?_
      · simp only [List.mem_cons, List.not_mem_nil, or_false] at h
        exact lex_none (by omega) (by omega) (by omega) (fun _ => by omega) _
      · rw [lexBuiltin_ctl (by omega), if_pos]
        simp only [List.mem_cons, List.not_mem_nil, or_false] at h
        rcases h with rfl | rfl | rfl | rfl | rfl | rfl | rfl | rfl | rfl | rfl <;> decide
    · refine doLex_feature hgc hE hi.range ?_ fun g hg => ?_
      · unfold Feature.lex; dsimp only
        rw [control_or (by omega), control_or (by omega), if_pos (by omega), lexRange_quoted h]
      · cases g with
        | charRange => exact absurd rfl hg
        | repetition => unfold Feature.lex; dsimp only; rw [control_or (by omega), control_or (by omega), if_neg (by omega)]
        | unicode => unfold Feature.lex; dsimp only; rw [control_or (by omega), if_neg (by omega)]
        | andNot => unfold Feature.lex; dsimp only; rw [control_or (by omega), control_or (by omega), if_neg (by omega)]
        | _ => rfl
    · refine doLex_feature hgc hE hi.rep ?_ fun g hg => ?_
      · unfold Feature.lex; dsimp only
        rw [control_or (by omega), control_or (by omega), if_pos (by omega), lexCount_quoted h]
      · cases g with
        | repetition => exact absurd rfl hg
        | charRange => unfold Feature.lex; dsimp only; rw [control_or (by omega), control_or (by omega), if_neg (by omega)]
        | unicode => unfold Feature.lex; dsimp only; rw [control_or (by omega), if_neg (by omega)]
        | andNot => unfold Feature.lex; dsimp only; rw [control_or (by omega), control_or (by omega), if_neg (by omega)]
        | _ => rfl
    · refine doLex_feature hgc hE (hi.andNot.2 ha) ?_ fun g hg => ?_
      · unfold Feature.lex; dsimp only
        rw [control_or (by omega), control_or (by omega), if_pos (by omega), lexAndNot_quoted h]
      · cases g with
        | andNot => exact absurd rfl hg
        | charRange => unfold Feature.lex; dsimp only; rw [control_or (by omega), control_or (by omega), if_neg (by omega)]
        | repetition => unfold Feature.lex; dsimp only; rw [control_or (by omega), control_or (by omega), if_neg (by omega)]
        | unicode => unfold Feature.lex; dsimp only; rw [control_or (by omega), if_neg (by omega)]
        | _ => rfl
  | @code t c hc hu =>
    obtain ⟨t', e1, r', e2, e3⟩ := readUnicode_ok hc hr
    refine ⟨r', e3, lex_letters hi (raw := {c}) (cs := fl.fold c) ?_ (.usable hu)⟩
    subst e1
    refine doLex_feature (c := 0xF000 + 120) (s1 := t' ++ r) (getChar_quoted (by omega)) (by decide) hi.uni ?_ fun g hg => ?_
    · unfold Feature.lex; dsimp only
      rw [control_or (by omega), if_pos rfl, lexUnicode, e2]; rfl
    · cases g with
      | unicode => exact absurd rfl hg
      | charRange => unfold Feature.lex; dsimp only; rw [control_or (by omega), control_or (by omega), if_neg (by omega)]
      | repetition => unfold Feature.lex; dsimp only; rw [control_or (by omega), control_or (by omega), if_neg (by omega)]
      | andNot => unfold Feature.lex; dsimp only; rw [control_or (by omega), control_or (by omega), if_neg (by omega)]
      | _ => rfl
  | @cls n k hk =>
    have hn := charClass_low hk
    simp only [List.mem_cons, List.not_mem_nil, or_false] at hn
    refine ⟨r, .refl r, lex_letters hi (doLex_builtin (getChar_quoted (by omega)) (by simp only [End]; omega) (fun g hg => ?_) ?_) (.cls hk)⟩
    · exact lex_none (by omega) (by omega) (by omega) (fun _ => by omega) _
    · have hk' : ¬ inStr controls n = true := by
        rcases hn with rfl | rfl | rfl | rfl | rfl | rfl | rfl | rfl <;> decide
      rw [lexBuiltin_ctl (by omega), if_neg hk']; rfl
  | @notCls n k hk =>
    have hn := charClass_capital hk
    simp only [List.mem_cons, List.not_mem_nil, or_false] at hn
    refine ⟨r, .refl r, ?_⟩
    have hd : doLex F ([92, n - 32] ++ r) = .ok (some (.letters {0xF000 + (n - 32)} false, r)) := by
      refine doLex_builtin (getChar_quoted (by omega)) (by simp only [End]; omega) (fun g hg => ?_) ?_
      · exact lex_none (by omega) (by omega) (by omega) (fun _ => by omega) _
      · have hk' : ¬ inStr controls (n - 32) = true := by
          rcases hn with h | h | h | h | h | h | h | h <;> rw [h] <;> decide
        rw [lexBuiltin_ctl (by omega), if_neg hk']; rfl
    unfold lex
    rw [hd, ok_bind]
    dsimp only
    rw [hi.alterNot hk, ok_bind]
    dsimp only
    rw [if_neg]
    rintro ⟨c, hc⟩
    rw [Finset.mem_filter, isControl_iff] at hc
    exact hi.clean (.cls hk) c hc.1 hc.2
  | @bracket t cs hit hh =>
    obtain ⟨raw, e1, e2⟩ := lexRange_items hit hh r
    refine ⟨r, .refl r, lex_letters hi (raw := raw) ?_ e2⟩
    refine doLex_feature (c := 91) (s1 := t ++ 93 :: r) (by simpa using getChar_plain (c := 91) (s := t ++ 93 :: r) (by omega)) (by decide) hi.range ?_ fun g hg => ?_
    · unfold Feature.lex; dsimp only
      rw [if_pos (.inl rfl), e1]
    · cases g with
      | charRange => exact absurd rfl hg
      | _ => rfl
  | @notBracket t cs hit =>
    obtain ⟨raw, e1, e2⟩ := lexRange_not_items hit r
    refine ⟨r, .refl r, lex_letters hi (raw := raw) ?_ e2⟩
    refine doLex_feature (c := 91) (s1 := 94 :: (t ++ 93 :: r)) (by simpa using getChar_plain (c := 91) (s := 94 :: (t ++ 93 :: r)) (by omega)) (by decide) hi.range ?_ fun g hg => ?_
    · unfold Feature.lex; dsimp only
      rw [if_pos (.inl rfl), e1]
    · cases g with
      | charRange => exact absurd rfl hg
      | _ => rfl
  | @exactly ds n h1 h2 h3 =>
    refine ⟨r, .refl r, lex_other (doLex_feature (c := 123) (s1 := ds ++ 125 :: r) ?_ (by decide) hi.rep ?_ fun g hg => ?_) (by simp)⟩
    · simpa using getChar_plain (c := 123) (s := ds ++ 125 :: r) (by omega)
    · unfold Feature.lex; dsimp only
      rw [if_pos (.inl rfl), lexCount_exactly h1 h2 h3]
    · cases g with
      | repetition => exact absurd rfl hg
      | _ => rfl
  | @atLeast ds n h1 h2 h3 =>
    refine ⟨r, .refl r, lex_other (doLex_feature (c := 123) (s1 := ds ++ 44 :: 125 :: r) ?_ (by decide) hi.rep ?_ fun g hg => ?_) (by simp)⟩
    · simpa using getChar_plain (c := 123) (s := ds ++ 44 :: 125 :: r) (by omega)
    · unfold Feature.lex; dsimp only
      rw [if_pos (.inl rfl), lexCount_atLeast h1 h2 h3]
    · cases g with
      | repetition => exact absurd rfl hg
      | _ => rfl
  | @between ds n ds' n' h1 h2 h3 h4 h5 h6 =>
    refine ⟨r, .refl r, lex_other (doLex_feature (c := 123) (s1 := ds ++ 44 :: (ds' ++ 125 :: r)) ?_ (by decide) hi.rep ?_ fun g hg => ?_) (by simp)⟩
    · simpa using getChar_plain (c := 123) (s := ds ++ 44 :: (ds' ++ 125 :: r)) (by omega)
    · unfold Feature.lex; dsimp only
      rw [if_pos (.inl rfl), lexCount_between h1 h2 h3 h4 h5 h6]
    · cases g with
      | repetition => exact absurd rfl hg
      | _ => rfl
  | star => exact op _ _ (by decide) (by simp) rfl
  | plus => exact op _ _ (by decide) (by simp) rfl
  | opt => exact op _ _ (by decide) (by simp) rfl
  | dot => exact op _ _ (by decide) (by simp) rfl
  | opn => exact op _ _ (by decide) (by simp) rfl
  | cls' => exact op _ _ (by decide) (by simp) rfl
  | bar => exact op _ _ (by decide) (by simp) rfl
  | bol => exact op _ _ (by decide) (by simp) rfl
  | eol => exact op _ _ (by decide) (by simp) rfl
  | amp ha =>
    refine ⟨r, .refl r, lex_other (doLex_feature (c := 38) (s1 := r) (getChar_plain (by omega)) (by decide) (hi.andNot.2 ha) (t := .amp) (r := r) rfl fun g hg => ?_) (by simp)⟩
    cases g with
    | andNot => exact absurd rfl hg
    | _ => rfl
  | tilde ha =>
    refine ⟨r, .refl r, lex_other (doLex_feature (c := 126) (s1 := r) (getChar_plain (by omega)) (by decide) (hi.andNot.2 ha) (t := .tilde) (r := r) rfl fun g hg => ?_) (by simp)⟩
    cases g with
    | andNot => exact absurd rfl hg
    | _ => rfl

theorem written_tame {t : List Nat} {tok : Tok} (h : Written fl t tok) (r : List Nat) : Tame (t ++ r) ∧ t ≠ [] := by
  have low : ∀ c, c < 0xF000 → c ≠ 92 → Tame ([c] ++ r) := fun c h1 h2 => .plain h2 (by simp only [End]; omega)
  cases h with
  | @plain c hc hu =>
    refine ⟨.plain ?_ (usable_ne_ctl (d := 255) hu (by omega)), by simp⟩
    rintro rfl
    exact hc (by simp [Flavor.special])
  | @quoted c hc =>
    refine ⟨.quoted ?_, by simp⟩
    simp only [Flavor.quotable, Flavor.special, List.mem_append] at hc
    rcases hc with (hc | hc) | hc
    · simp only [List.mem_cons, List.not_mem_nil, or_false] at hc; omega
    · split at hc
      · simp only [List.mem_cons, List.not_mem_nil, or_false] at hc; omega
      · cases hc
    · simp only [List.mem_cons, List.not_mem_nil, or_false] at hc; omega
  | code h _ =>
    cases h with
    | two _ _ => exact ⟨.quoted (by omega), by simp⟩
    | braces _ _ _ => exact ⟨.quoted (by omega), by simp⟩
  | cls h =>
    have h := charClass_low h
    simp only [List.mem_cons, List.not_mem_nil, or_false] at h
    exact ⟨.quoted (by omega), by simp⟩
  | notCls h =>
    have h := charClass_capital h
    simp only [List.mem_cons, List.not_mem_nil, or_false] at h
    exact ⟨.quoted (by omega), by simp⟩
  | bracket _ _ => exact ⟨.plain (by omega) (by decide), by simp⟩
  | notBracket _ => exact ⟨.plain (by omega) (by decide), by simp⟩
  | exactly _ _ _ => exact ⟨.plain (by omega) (by decide), by simp⟩
  | atLeast _ _ _ => exact ⟨.plain (by omega) (by decide), by simp⟩
  | between _ _ _ _ _ _ => exact ⟨.plain (by omega) (by decide), by simp⟩
  | _ => exact ⟨low _ (by omega) (by omega), by simp⟩

theorem pattern_tame {s : List Nat} {ts : List Tok} (h : Pattern fl s ts) : Tame s := by
  cases h with
  | nil => exact .nil
  | cons h _ => exact (written_tame h _).1

theorem pattern_length {s : List Nat} {ts : List Tok} (h : Pattern fl s ts) : ts.length ≤ s.length := by
  induction h with
  | nil => simp
  | @cons t tok s ts h _ ih =>
    have := (written_tame h []).2
    have : t.length ≠ 0 := by simpa using this
    simp; omega

theorem lex_same {a b : List Nat} (h : Same a b) : lex F a = lex F b := by
  unfold lex doLex
  rw [h.getChar]

theorem pattern_tokens (hi : Implements F fl) {s : List Nat} {ts : List Tok} (h : Pattern fl s ts) :
    ∀ (fuel : Nat) (s' : List Nat), ts.length < fuel → Same s' s → tokens F fuel s' = .ok ts := by
  induction h with
  | nil =>
    intro fuel s' hf hs
    obtain ⟨fuel, rfl⟩ := Nat.exists_eq_succ_of_ne_zero (show fuel ≠ 0 by omega)
    rw [Nat.succ_eq_add_one, tokens, lex_same hs]
    rfl
  | @cons t tok s ts h hp ih =>
    intro fuel s' hf hs
    obtain ⟨fuel, rfl⟩ := Nat.exists_eq_succ_of_ne_zero (show fuel ≠ 0 by omega)
    obtain ⟨r', e1, e2⟩ := written_lex hi h (pattern_tame hp)
    rw [Nat.succ_eq_add_one, tokens, lex_same hs, e2, ok_bind]
    dsimp only
    rw [ih fuel r' (by simp at hf; omega) e1]
    rfl

end Pire.Lex
