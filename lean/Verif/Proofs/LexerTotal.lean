import Verif.Proofs.Features
import Verif.Proofs.Pattern

/-!
# Lexing ends, and what it consumes
-/

namespace Pire.Lex

open Pire.Spec Pire.Unidata

/-- Digits are ASCII digits (also when escaped), and there are at most nine in a row. An escaped `ÿ` looks like the end of
the pattern. -/
structure Tidy (s : List Nat) : Prop where
  noEnd : ∀ c ∈ s, c % 0x1000 ≠ 0xFF
  chars : ∀ c ∈ s, c < 2 ^ 21 ∧ (isDigit c = true → c ≤ 57) ∧ isDigit (0xF000 ||| c) = false
  runs : ∀ v, v <:+ s → (v.takeWhile isDigit).length ≤ 9

/-- How the rest of the input depends on the input. -/
structure Reads (s s' : List Nat) : Prop where
  len : s'.length ≤ s.length
  bal : Paired s' → Paired s
  mem : ∀ P : Nat → Prop, (∀ c, P c → P (0xF000 ||| c)) → (∀ c ∈ s, P c) → ∀ c ∈ s', P c
  tidy : Tidy s → Tidy s'

theorem Reads.refl (s : List Nat) : Reads s s := ⟨le_refl _, id, fun _ _ h => h, id⟩

theorem Reads.trans {a b c : List Nat} (h : Reads a b) (h' : Reads b c) : Reads a c :=
  ⟨h'.len.trans h.len, h.bal ∘ h'.bal, fun P h1 h2 => h'.mem P h1 (h.mem P h1 h2), h'.tidy ∘ h.tidy⟩

theorem Tidy.suffix {s s' : List Nat} (h : Tidy s) (hs : s' <:+ s) : Tidy s' :=
  ⟨fun c hc => h.noEnd c (hs.subset hc), fun c hc => h.chars c (hs.subset hc), fun v hv => h.runs v (hv.trans hs)⟩

theorem ctl_idem (c : Nat) : 0xF000 ||| (0xF000 ||| c) = 0xF000 ||| c := by
  rw [← Nat.or_assoc, Nat.or_self]

theorem ctl_lt {c : Nat} (h : c < 2 ^ 21) : 0xF000 ||| c < 2 ^ 21 := Nat.or_lt_two_pow (by omega) h

theorem ctl_mod (c : Nat) : (0xF000 ||| c) % 0x1000 = c % 0x1000 := by
  apply Nat.eq_of_testBit_eq
  intro i
  have h : (0x1000 : Nat) = 2 ^ 12 := rfl
  rw [h, Nat.testBit_mod_two_pow, Nat.testBit_mod_two_pow, Nat.testBit_or]
  by_cases hi : i < 12
  · have : (0xF000 : Nat).testBit i = false := by
      interval_cases i <;> rfl
    simp [this]
  · simp [hi]

theorem ctl_ne (c : Nat) : 0xF000 ||| c ≠ 92 := by
  intro h
  have h1 : (0xF000 : Nat) ≤ 0xF000 ||| c := Nat.left_le_or
  omega

theorem getChar_reads {s : List Nat} {c : Nat} {s' : List Nat} (h : getChar s = .ok (c, s')) :
    Reads s s' ∧ Reads s (ungetChar c s') ∧ c ≠ 92 ∧ ((s = [] ∧ s' = [] ∧ c = End) ∨ s'.length < s.length) ∧
    (∀ P : Nat → Prop, (∀ c, P c → P (0xF000 ||| c)) → P End → (∀ c ∈ s, P c) → P c) ∧
    (s ≠ [] → ∀ P : Nat → Prop, (∀ c, P c → P (0xF000 ||| c)) → (∀ c ∈ s, P c) → P c) := by
  unfold getChar at h
  split at h
  · cases h
    exact ⟨.refl _, by rw [ungetChar, if_pos rfl]; exact .refl _, by decide, .inl ⟨rfl, rfl, rfl⟩, fun P _ h _ => h, fun h => absurd rfl h⟩
  · rename_i a t
    split at h
    · rename_i ha
      subst ha
      split at h
      · cases h
      · rename_i ch t
        injection h with h
        injection h with h1 h2
        subst h1 h2
        have hr : Reads (92 :: ch :: t) t := ⟨by simp; omega, .quoted, fun P _ h2 c hc => h2 c (by simp [hc]), fun h => h.suffix ⟨[92, ch], rfl⟩⟩
        refine ⟨hr, ?_, ctl_ne ch, .inr (by simp; omega), fun P h1 _ h3 => h1 ch (h3 ch (by simp)), fun _ P h1 h3 => h1 ch (h3 ch (by simp))⟩
        unfold ungetChar
        split
        · exact hr
        · refine ⟨by simp, fun h => ?_, fun P h1 h2 c hc => ?_, fun h => ?_⟩
          · generalize hk : Control ||| ch = k at h
            have hne : k ≠ 92 := hk ▸ ctl_ne ch
            cases h with
            | plain _ h => exact .quoted h
            | quoted h => exact absurd rfl hne
          · rcases List.mem_cons.1 hc with rfl | hc
            · exact h1 ch (h2 ch (by simp))
            · exact h2 c (by simp [hc])
          · have hch := h.chars ch (by simp)
            have hd : isDigit (Control ||| ch) = false := hch.2.2
            refine ⟨fun c hc => ?_, fun c hc => ?_, fun v hv => ?_⟩
            · rcases List.mem_cons.1 hc with rfl | hc
              · rw [ctl_mod]; exact h.noEnd ch (by simp)
              · exact h.noEnd c (by simp [hc])
            · rcases List.mem_cons.1 hc with rfl | hc
              · refine ⟨ctl_lt hch.1, fun h => ?_, ?_⟩
                · rw [hd] at h; cases h
                · rw [ctl_idem]; exact hch.2.2
              · exact h.chars c (by simp [hc])
            · rcases List.suffix_cons_iff.1 hv with rfl | hv
              · rw [List.takeWhile_cons_of_neg (by rw [hd]; decide)]; simp
              · exact h.runs v (hv.trans ⟨[92, ch], rfl⟩)
    · rename_i ha
      injection h with h
      injection h with h1 h2
      subst h1 h2
      have hr : Reads (a :: t) t := ⟨by simp, .plain ha, fun P _ h2 c hc => h2 c (by simp [hc]), fun h => h.suffix ⟨[a], rfl⟩⟩
      refine ⟨hr, ?_, ha, .inr (by simp), fun P _ _ h3 => h3 a (by simp), fun _ P _ h3 => h3 a (by simp)⟩
      unfold ungetChar
      split
      · exact hr
      · exact .refl _

theorem getChar_sat (s : List Nat) : (getChar s).Sat True fun x => getChar s = .ok x := by
  cases h : getChar s with
  | ok x => exact rfl
  | throws => exact trivial
  | bad =>
    unfold getChar at h
    (repeat' split at h) <;> cases h

/-- Taking a character and going on. -/
theorem getChar_bind {α : Type} {s : List Nat} {g : Nat × List Nat → Res α} {Q : α → Prop}
    (h : ∀ c s', getChar s = .ok (c, s') → (g (c, s')).Sat True Q) : (getChar s >>= g).Sat True Q :=
  (getChar_sat s).bind fun x hx => h x.1 x.2 hx

theorem readHexDigit_reads (stop : Nat → Nat → Bool) : ∀ (fuel : Nat) (acc s : List Nat), s.length < fuel →
    (readHexDigit stop fuel acc s).Sat True fun x => Reads s x.2 := by
  intro fuel
  induction fuel with
  | zero => intro acc s h; omega
  | succ fuel ih =>
    intro acc s h
    rw [readHexDigit]
    refine getChar_bind fun c s' hg => ?_
    obtain ⟨h1, h2, -, h4, -⟩ := getChar_reads hg
    dsimp only
    split
    · exact h2
    · split
      · rename_i hd
        rcases h4 with ⟨-, -, rfl⟩ | h4
        · exact absurd hd (by decide)
        · exact (ih _ _ (by omega)).mono id fun x hx => h1.trans hx
      · exact trivial

theorem hexToDec_sat (l : List Nat) : (hexToDec l).Sat True fun c => c ≤ MaxUnicode := by
  unfold hexToDec
  split
  · exact trivial
  · dsimp only
    generalize (if List.foldl (fun v c => v * 16 + hexVal c) 0 l < 2 ^ 64 then _ else _ : Nat) = v
    split
    · exact trivial
    · rename_i h
      exact Nat.not_lt.1 h

/-- The first character is taken whatever it is. -/
theorem readUnicode_reads (s : List Nat) : (readUnicode s).Sat True fun x => x.1 ≤ MaxUnicode ∧ ∃ c s1, getChar s = .ok (c, s1) ∧ Reads s1 x.2 := by
  unfold readUnicode
  refine getChar_bind fun c s1 hg => ?_
  dsimp only
  split
  · refine getChar_bind fun c2 s2 hg2 => ?_
    have r2 := (getChar_reads hg2).1
    refine (readHexDigit_reads _ _ _ _ (by omega)).bind fun x hx => ?_
    refine getChar_bind fun c3 s3 hg3 => ?_
    split
    · exact trivial
    · refine (hexToDec_sat _).bind fun v hv => ?_
      exact ⟨hv, c, s1, hg, (r2.trans hx).trans (getChar_reads hg3).1⟩
  · refine (readHexDigit_reads _ _ _ _ (by omega)).bind fun x hx => ?_
    split
    · exact trivial
    · refine (hexToDec_sat _).bind fun v hv => ?_
      exact ⟨hv, c, s1, hg, hx⟩

theorem readUnicode_unget {c : Nat} (h : c ≠ 92) (he : c ≠ End) (s : List Nat) :
    (readUnicode (ungetChar c s)).Sat True fun x => x.1 ≤ MaxUnicode ∧ Reads s x.2 := by
  rw [ungetChar, if_neg he]
  refine (readUnicode_reads (c :: s)).mono id fun x hx => ?_
  obtain ⟨h1, c', s1, h2, h3⟩ := hx
  rw [getChar_plain h] at h2
  cases h2
  exact ⟨h1, h3⟩

theorem correctChar_cases (c : Nat) (l : List Nat) : correctChar c l = c ∨ (isControl c = true ∧ correctChar c l = plain c) ∨
    (c ≤ 0xFF ∧ correctChar c l = 0xF000 ||| c) := by
  unfold correctChar
  dsimp only
  split
  · rename_i h
    simp only [Bool.and_eq_true] at h
    exact .inr (.inl ⟨h.1, rfl⟩)
  · split
    · rename_i h
      simp only [Bool.and_eq_true, decide_eq_true_eq] at h
      exact .inr (.inr ⟨h.1, Nat.or_comm ..⟩)
    · exact .inl rfl

theorem correctChar_lt {c : Nat} (h : c < 2 ^ 21) (l : List Nat) : correctChar c l < 2 ^ 21 := by
  rcases correctChar_cases c l with e | ⟨-, e⟩ | ⟨-, e⟩ <;> rw [e]
  · exact h
  · exact lt_of_le_of_lt (Nat.and_le_left) h
  · exact ctl_lt h

theorem rangeItem_reads (ch : Nat) {s : List Nat} (ht : Tidy s) : (rangeItem ch s).Sat True fun x => Reads s x.2 := by
  unfold rangeItem
  have e0 : Control ||| 120 = 0xF078 := by decide
  have step1 : (if ch = Control ||| 120 then do
      let (c, s) ← readUnicode (ungetChar ch s)
      Res.ok (true, c, s)
    else Res.ok (false, 0, s) : Res (Bool × Nat × List Nat)).Sat True fun x => Reads s x.2.2 := by
    split
    · rename_i h
      refine (readUnicode_unget (by rw [h, e0]; decide) (by rw [h, e0]; decide) s).bind fun x hx => ?_
      exact hx.2
    · exact .refl _
  refine step1.bind fun x hx => ?_
  obtain ⟨fu, us, s1⟩ := x
  have ht1 := hx.tidy ht
  dsimp only at hx ht1 ⊢
  split
  · refine getChar_bind fun c2 s2 hg2 => ?_
    have r2 := (getChar_reads hg2).1
    refine getChar_bind fun c3 s3 hg3 => ?_
    obtain ⟨r3, -, n3, -, p3, -⟩ := getChar_reads hg3
    dsimp only
    have step2 : (if c3 = Control ||| 120 then readUnicode (ungetChar c3 s3)
      else
        let last := correctChar c3 rangeControls
        if isControl last then Res.throws else Res.ok (last, s3) : Res (Nat × List Nat)).Sat True fun x => x.1 < 2 ^ 32 - 1 ∧ Reads s3 x.2 := by
      split
      · rename_i h
        refine (readUnicode_unget n3 (by rw [h, e0]; decide) s3).mono id fun x hx => ?_
        refine ⟨lt_of_le_of_lt hx.1 (by decide), hx.2⟩
      · dsimp only
        split
        · exact trivial
        · have : c3 < 2 ^ 21 := p3 (· < 2 ^ 21) (fun c h => ctl_lt h) (by decide) fun c hc => ((r2.tidy ht1).chars c hc).1
          refine ⟨lt_trans (correctChar_lt this _) (by norm_num), .refl _⟩
    refine step2.bind fun y hy => ?_
    obtain ⟨last, s4⟩ := y
    dsimp only at hy ⊢
    rw [if_neg (by omega)]
    exact ((hx.trans r2).trans r3).trans hy.2
  · repeat' split
    all_goals first | exact hx | exact trivial

theorem plain_mod {c : Nat} (h : isControl c = true) : plain c % 0x1000 = c % 0x1000 := by
  rw [isControl_iff] at h
  unfold Reserved at h
  have e : plain c % 0x1000 = c % 0x100 := by
    unfold plain
    apply Nat.eq_of_testBit_eq
    intro i
    have h1 : (0x1000 : Nat) = 2 ^ 12 := rfl
    have h2 : (0x100 : Nat) = 2 ^ 8 := rfl
    rw [h1, h2, Nat.testBit_mod_two_pow, Nat.testBit_mod_two_pow, Nat.testBit_and]
    by_cases hi : i < 12
    · by_cases hi8 : i < 8
      · have : (0xFFFF00FF : Nat).testBit i = true := by interval_cases i <;> rfl
        simp [this, hi, hi8]
      · have : (0xFFFF00FF : Nat).testBit i = false := by interval_cases i <;> rfl
        simp [this, hi8]
    · have : ¬ i < 8 := by omega
      simp [hi, this]
  omega

theorem correctChar_mod (c : Nat) (l : List Nat) : correctChar c l % 0x1000 = c % 0x1000 := by
  rcases correctChar_cases c l with e | ⟨h, e⟩ | ⟨-, e⟩ <;> rw [e]
  · exact plain_mod h
  · exact ctl_mod c

theorem correctChar_end : correctChar End rangeControls = End := by decide

/-- The closing bracket is found: some character is `]`, up to the bits an escape adds. -/
theorem rangeLoop_reads : ∀ (fuel ch : Nat) (s : List Nat) (acc : Finset Nat), Tidy s →
    (s.length + 2 ≤ fuel ∨ (ch = End ∧ 1 ≤ fuel)) →
    (rangeLoop fuel ch s acc).Sat True fun x => Reads s x.2 ∧ ((∀ c ∈ s, c % 0x1000 ≠ 93) → ch % 0x1000 = 93) := by
  intro fuel
  induction fuel with
  | zero => intro ch s acc _ h; omega
  | succ fuel ih =>
    intro ch s acc ht hf
    rw [rangeLoop]
    split
    · exact trivial
    · rename_i hE
      split
      · rename_i h93
        refine ⟨.refl _, fun _ => ?_⟩
        rw [h93]; decide
      · refine (rangeItem_reads ch ht).bind fun x hx => ?_
        obtain ⟨new, s1⟩ := x
        dsimp only at hx ⊢
        refine getChar_bind fun c2 s2 hg => ?_
        obtain ⟨r1, -, -, h4, p, -⟩ := getChar_reads hg
        have hl := hx.len
        refine (ih (correctChar c2 rangeControls) s2 _ (r1.tidy (hx.tidy ht)) ?_).mono id fun y hy => ⟨(hx.trans r1).trans hy.1, fun hno => ?_⟩
        · rcases h4 with ⟨-, -, rfl⟩ | h4
          · exact .inr ⟨correctChar_end, by omega⟩
          · exact .inl (by omega)
        · exfalso
          have cl : ∀ c, c % 0x1000 ≠ 93 → (0xF000 ||| c) % 0x1000 ≠ 93 := fun c h => by rw [ctl_mod]; exact h
          have h1 : ∀ c ∈ s1, c % 0x1000 ≠ 93 := hx.mem _ cl hno
          have h2 := hy.2 (r1.mem _ cl h1)
          rw [correctChar_mod] at h2
          exact p (fun c => c % 0x1000 ≠ 93) cl (by decide) h1 h2

theorem end_not_digit : ¬ isDigit End = true := by
  rw [(control_case (c := End) (by decide) (by decide)).2.2]; decide

theorem readInt_reads : ∀ (fuel n ch : Nat) (s : List Nat) (k : Nat), Tidy s → (isDigit ch = true → ch ≤ 57) →
    n < 10 ^ k → k + ((ch :: s).takeWhile isDigit).length ≤ 9 → (s.length + 2 ≤ fuel ∨ (ch = End ∧ 1 ≤ fuel)) →
    (readInt fuel n ch s).Sat True fun x => Reads s x.2.2 := by
  intro fuel
  induction fuel with
  | zero => intro n ch s k _ _ _ _ h; omega
  | succ fuel ih =>
    intro n ch s k ht hd hn hk hf
    rw [readInt]
    split
    · rename_i hdig
      have hch := hd hdig
      rw [List.takeWhile_cons_of_pos hdig, List.length_cons] at hk
      have hn' : n * 10 + (ch - 48) < 10 ^ (k + 1) := by rw [pow_succ]; omega
      have hb : 10 ^ (k + 1) ≤ 10 ^ 9 := Nat.pow_le_pow_right (by omega) (by omega)
      dsimp only
      rw [if_neg (by omega)]
      have hne : ch ≠ End := by
        rintro rfl
        exact absurd hch (by decide)
      refine getChar_bind fun c2 s2 hg => ?_
      obtain ⟨r1, r2, -, h4, p, p'⟩ := getChar_reads hg
      refine (ih _ _ _ (k + 1) (r1.tidy ht) ?_ hn' ?_ ?_).mono id fun x hx => r1.trans hx
      · by_cases he : c2 = End
        · subst he; intro h; exact absurd h end_not_digit
        · have := (r2.tidy ht)
          rw [ungetChar, if_neg he] at this
          exact (this.chars c2 (by simp)).2.1
      · by_cases he : c2 = End
        · subst he
          rw [List.takeWhile_cons_of_neg end_not_digit]
          simp only [List.length_nil]; omega
        · -- the digits that follow are those of the input
          unfold getChar at hg
          split at hg
          · cases hg; exact absurd rfl he
          · rename_i a t
            split at hg
            · rename_i h92
              split at hg
              · cases hg
              · rename_i b u
                injection hg with hg
                injection hg with e1 e2
                subst e1 e2
                have := (ht.chars b (by simp)).2.2
                rw [List.takeWhile_cons_of_neg (by rw [this]; decide)]
                simp only [List.length_nil]; omega
            · injection hg with hg
              injection hg with e1 e2
              subst e1 e2
              change k + 1 + (List.takeWhile isDigit (a :: t)).length ≤ 9
              omega
      · rcases h4 with ⟨h5, h6, rfl⟩ | h4
        · exact .inr ⟨rfl, by omega⟩
        · exact .inl (by omega)
    · exact .refl _

/-- What a successful `Lex` of a feature consumes, when the input begins with the character that was looked at. -/
def Takes (s : List Nat) (x : Tok × List Nat) : Prop := ∃ c s1, getChar s = .ok (c, s1) ∧ Reads s1 x.2

theorem lexRange_reads {s : List Nat} (ht : Tidy s) : (lexRange s).Sat True fun x => Takes s x ∧
    ((∀ c ∈ s, c % 0x1000 ≠ 93) → ∃ c s1, getChar s = .ok (c, s1) ∧ correctChar c rangeControls = 91) := by
  unfold lexRange
  refine getChar_bind fun c s1 hg => ?_
  obtain ⟨r1, -, -, -, p1, -⟩ := getChar_reads hg
  have cl : ∀ c, c % 0x1000 ≠ 93 → (0xF000 ||| c) % 0x1000 ≠ 93 := fun c h => by rw [ctl_mod]; exact h
  dsimp only
  split
  · rename_i h
    refine ⟨⟨c, s1, hg, .refl _⟩, fun hno => ⟨c, s1, hg, h.resolve_right fun h => ?_⟩⟩
    have := p1 (fun c => c % 0x1000 ≠ 93) cl (by decide) hno
    rw [← correctChar_mod c rangeControls, h] at this
    exact this rfl
  · have loop : ∀ (ch : Nat) (s2 : List Nat) (neg : Bool), Reads s1 s2 → (ch % 0x1000 = 93 → (∀ c ∈ s1, c % 0x1000 ≠ 93) → False) →
        ((rangeLoop (s2.length + 2) ch s2 ∅) >>= fun x => Res.ok (Tok.letters x.1 neg, x.2)).Sat True fun x => Takes s x ∧
          ((∀ c ∈ s, c % 0x1000 ≠ 93) → ∃ c s1, getChar s = .ok (c, s1) ∧ correctChar c rangeControls = 91) := by
      intro ch s2 neg hr hch
      refine (rangeLoop_reads _ ch s2 ∅ (hr.tidy (r1.tidy ht)) (.inl (by omega))).bind fun x hx => ?_
      refine ⟨⟨c, s1, hg, hr.trans hx.1⟩, fun hno => ?_⟩
      have h1 := r1.mem _ cl hno
      exact (hch (hx.2 (hr.mem _ cl h1)) h1).elim
    refine getChar_bind fun c2 s2 hg2 => ?_
    obtain ⟨r2, -, -, -, p2, -⟩ := getChar_reads hg2
    have k2 : correctChar c2 rangeControls % 0x1000 = 93 → (∀ c ∈ s1, c % 0x1000 ≠ 93) → False := fun h hno => by
      rw [correctChar_mod] at h
      exact p2 (fun c => c % 0x1000 ≠ 93) cl (by decide) hno h
    dsimp only
    split
    · refine getChar_bind fun c3 s3 hg3 => ?_
      obtain ⟨r3, -, -, -, p3, -⟩ := getChar_reads hg3
      refine loop _ s3 true (r2.trans r3) fun h hno => ?_
      rw [correctChar_mod] at h
      exact p3 (fun c => c % 0x1000 ≠ 93) cl (by decide) (r2.mem _ cl hno) h
    · exact loop _ s2 false r2 k2

theorem digit_next {s : List Nat} (ht : Tidy s) {c : Nat} {s1 : List Nat} (hg : getChar s = .ok (c, s1)) :
    (isDigit c = true → c ≤ 57) ∧ ((c :: s1).takeWhile isDigit).length ≤ 9 ∧ (s1.length + 2 ≤ s1.length + 2 ∨ (c = End ∧ 1 ≤ s1.length + 2)) := by
  obtain ⟨r1, r2, -, -, -, -⟩ := getChar_reads hg
  refine ⟨?_, ?_, .inl (by omega)⟩
  · by_cases he : c = End
    · subst he; intro h; exact absurd h end_not_digit
    · have := r2.tidy ht
      rw [ungetChar, if_neg he] at this
      exact (this.chars c (by simp)).2.1
  · by_cases he : c = End
    · subst he; rw [List.takeWhile_cons_of_neg end_not_digit]; simp
    · have := r2.tidy ht
      rw [ungetChar, if_neg he] at this
      exact this.runs _ (List.suffix_refl _)

theorem lexCount_reads {s : List Nat} (ht : Tidy s) : (lexCount s).Sat True (Takes s) := by
  unfold lexCount
  refine getChar_bind fun c s1 hg => ?_
  have r1 := (getChar_reads hg).1
  dsimp only
  split
  · exact ⟨c, s1, hg, .refl _⟩
  · refine getChar_bind fun c2 s2 hg2 => ?_
    have r2 := (getChar_reads hg2).1
    obtain ⟨d1, d2, d3⟩ := digit_next (r1.tidy ht) hg2
    dsimp only
    split
    · exact trivial
    · refine (readInt_reads _ 0 c2 s2 0 (r2.tidy (r1.tidy ht)) d1 (by simp) (by omega) d3).bind fun x hx => ?_
      obtain ⟨lower, c3, s3⟩ := x
      dsimp only at hx ⊢
      split
      · exact ⟨c, s1, hg, r2.trans hx⟩
      · split
        · exact trivial
        · refine getChar_bind fun c4 s4 hg4 => ?_
          have r4 := (getChar_reads hg4).1
          have t3 := hx.tidy (r2.tidy (r1.tidy ht))
          obtain ⟨d1, d2, d3⟩ := digit_next t3 hg4
          dsimp only
          split
          · exact ⟨c, s1, hg, (r2.trans hx).trans r4⟩
          · split
            · exact trivial
            · refine (readInt_reads _ 0 c4 s4 0 (r4.tidy t3) d1 (by simp) (by omega) d3).bind fun y hy => ?_
              obtain ⟨upper, c5, s5⟩ := y
              dsimp only at hy ⊢
              split
              · exact trivial
              · exact ⟨c, s1, hg, ((r2.trans hx).trans r4).trans hy⟩

theorem lexAndNot_reads (s : List Nat) : (lexAndNot s).Sat True (Takes s) := by
  unfold lexAndNot
  refine getChar_bind fun c s1 hg => ?_
  have : Reads s1 s1 := .refl _
  dsimp only
  repeat' split
  all_goals first | exact trivial | exact ⟨c, s1, hg, this⟩

theorem lexUnicode_reads (s : List Nat) : (lexUnicode s).Sat True (Takes s) := by
  unfold lexUnicode
  refine (readUnicode_reads s).bind fun x hx => ?_
  exact hx.2

theorem lexBuiltin_reads (s : List Nat) : (lexBuiltin s).Sat True (Takes s) := by
  unfold lexBuiltin
  refine getChar_bind fun c s1 hg => ?_
  have : Reads s1 s1 := .refl _
  dsimp only
  repeat' split
  all_goals exact ⟨c, s1, hg, this⟩

theorem feature_reads (f : Feature) (ch : Nat) {s : List Nat} (ht : Tidy s) {r : Res (Tok × List Nat)} (h : f.lex ch s = some r) :
    r.Sat True (Takes s) := by
  unfold Feature.lex at h
  cases f <;> dsimp only at h <;> first | (split at h) | skip
  all_goals cases h
  · exact (lexRange_reads ht).mono id fun _ h => h.1
  · exact lexCount_reads ht
  · exact lexUnicode_reads s
  · exact lexAndNot_reads s

theorem getChar_end {s : List Nat} (ht : Tidy s) {c : Nat} {s1 : List Nat} (hg : getChar s = .ok (c, s1)) (he : c = End) : s = [] := by
  by_contra hne
  have := (getChar_reads hg).2.2.2.2.2 hne (fun c => c % 0x1000 ≠ 0xFF) (fun c h => by rw [ctl_mod]; exact h) ht.noEnd
  rw [he] at this
  exact this rfl

theorem doLex_reads (F : List Feature) {s : List Nat} (ht : Tidy s) : (doLex F s).Sat True fun x => match x with
    | none => s = []
    | some x => Reads s x.2 ∧ x.2.length < s.length := by
  unfold doLex
  refine getChar_bind fun c s1 hg => ?_
  obtain ⟨r1, r2, n92, h4, -, -⟩ := getChar_reads hg
  dsimp only
  by_cases he : c = End
  · have hs := getChar_end ht hg he
    subst hs
    cases hg
    exact rfl
  · have hlt : s1.length < s.length := h4.resolve_left fun h => he h.2.2
    rw [ungetChar, if_neg he] at r2 ⊢
    have hp : peekChar (c :: s1) = c := rfl
    rw [hp, if_neg he]
    have key : ((F.findSome? fun f => f.lex c (c :: s1)).getD (lexBuiltin (c :: s1))).Sat True (Takes (c :: s1)) := by
      cases hf : F.findSome? fun f => f.lex c (c :: s1) with
      | none => exact lexBuiltin_reads _
      | some r =>
        obtain ⟨f, -, hf⟩ := List.exists_of_findSome?_eq_some hf
        exact feature_reads f c (r2.tidy ht) hf
    refine key.bind fun x hx => ?_
    obtain ⟨c', s1', hg', hr⟩ := hx
    rw [getChar_plain n92] at hg'
    cases hg'
    exact ⟨r1.trans hr, lt_of_le_of_lt hr.len hlt⟩

theorem alterAll_sat (F : List Feature) (cs : Finset Nat) (neg : Bool) : (alterAll F cs neg).Sat True fun _ => True := by
  induction F with
  | nil => exact trivial
  | cons f F ih =>
    change (alterAll F cs neg >>= fun x => f.alter x.1 x.2).Sat True _
    refine ih.bind fun x _ => ?_
    cases f <;> first | exact trivial | skip
    change (alterClasses x.1 x.2).Sat True _
    unfold alterClasses
    dsimp only
    split <;> exact trivial

theorem lex_reads (F : List Feature) {s : List Nat} (ht : Tidy s) : (lex F s).Sat True fun x => match x with
    | none => s = []
    | some x => Reads s x.2 ∧ x.2.length < s.length := by
  unfold lex
  refine (doLex_reads F ht).bind fun x hx => ?_
  split
  · exact hx
  · rename_i cs neg s'
    refine (alterAll_sat F cs neg).bind fun y _ => ?_
    dsimp only
    split
    · exact trivial
    · exact hx
  · exact hx

/-- Lexing ends, and if it succeeds, every backslash was followed by something. -/
theorem tokens_reads (F : List Feature) : ∀ (fuel : Nat) (s : List Nat), Tidy s → s.length < fuel →
    (tokens F fuel s).Sat True fun _ => Paired s := by
  intro fuel
  induction fuel with
  | zero => intro s _ h; omega
  | succ fuel ih =>
    intro s ht hf
    rw [tokens]
    refine (lex_reads F ht).bind fun x hx => ?_
    cases x with
    | none => subst hx; exact Paired.nil
    | some x =>
      obtain ⟨hr, hl⟩ := hx
      exact (ih x.2 (hr.tidy ht) (by omega)).bind fun _ hb => hr.bal hb

theorem digits_low {c : Nat} (h : c < 0x660) : (isDigit c = true ↔ 48 ≤ c ∧ c ≤ 57) ∧ isDigit (0xF000 ||| c) = false := by
  have key : ∀ k < 7, checkRange (checkPage fun i c => decide (0x660 ≤ c) || ((i % 64 == 16) == decide (48 ≤ c ∧ c ≤ 57))) 3 (8 * k) = true := by
    decide +kernel
  have key2 : ∀ k < 7, checkRange (checkPage fun i c => decide (0xF660 ≤ c) || !(i % 64 == 16)) 3 (8 * (240 + k)) = true := by
    decide +kernel
  have e : 0xF000 ||| c = 0xF000 + c := by
    have := Nat.two_pow_add_eq_or_of_lt (i := 12) (b := c) (by omega) 15
    rw [← show 2 ^ 12 * 15 = 0xF000 from rfl, this]
  constructor
  · have h := check256 (key (c / 256) (by omega)) (by omega) (c := c) (by omega) (by omega)
    unfold isDigit
    simp only [Bool.or_eq_true, decide_eq_true_eq, beq_iff_eq] at h
    have h := h.resolve_left (by omega)
    rw [h]; simp
  · rw [e]
    have h := check256 (key2 (c / 256) (by omega)) (by omega) (c := 0xF000 + c) (by omega) (by omega)
    simp only [Bool.or_eq_true, decide_eq_true_eq, Bool.not_eq_true'] at h
    exact h.resolve_left (by omega)

theorem clean_tidy {s : List Nat} (h : Clean s) : Tidy s := by
  refine ⟨fun c hc => ?_, fun c hc => ?_, fun v hv => ?_⟩
  · have := h.1 c hc; omega
  · have := h.1 c hc
    have hd := digits_low this.1
    exact ⟨by omega, fun h => (hd.1.1 h).2, hd.2⟩
  · obtain ⟨u, rfl⟩ := hv
    refine h.2 u (v.takeWhile isDigit) (v.dropWhile isDigit) (by rw [List.append_assoc, List.takeWhile_append_dropWhile]) fun d hd => ?_
    have h1 : isDigit d = true := List.all_eq_true.1 List.all_takeWhile d hd
    exact (digits_low (h.1 d (List.mem_append_right _ (List.takeWhile_subset _ hd))).1).1.1 h1

/-! ### Errors -/

variable {F : List Feature} {fl : Flavor}

theorem tokens_same {a b : List Nat} (h : Same a b) (fuel : Nat) : tokens F (fuel + 1) a = tokens F (fuel + 1) b := by
  rw [tokens, tokens, lex_same h]

/-- The tokens of a pattern come first, then those of the text that follows. -/
theorem pattern_then (hi : Implements F fl) {s : List Nat} {ts : List Tok} (h : Pattern fl s ts) {rest : List Nat} (hr : Tame rest) (fuel : Nat) :
    tokens F (ts.length + (fuel + 1)) (s ++ rest) = (tokens F (fuel + 1) rest >>= fun ts' => .ok (ts ++ ts')) := by
  induction h with
  | nil =>
    simp only [List.length_nil, Nat.zero_add, List.nil_append]
    cases tokens F (fuel + 1) rest <;> rfl
  | @cons t tok s ts h hp ih =>
    have ht : Tame (s ++ rest) := by
      cases hp with
      | nil => exact hr
      | cons h _ => rw [List.append_assoc]; exact (written_tame h _).1
    obtain ⟨r', e1, e2⟩ := written_lex hi h ht
    rw [List.length_cons, show ts.length + 1 + (fuel + 1) = (ts.length + (fuel + 1)) + 1 by omega, tokens, List.append_assoc, e2, ok_bind]
    dsimp only
    rw [show ts.length + (fuel + 1) = (ts.length + fuel) + 1 by omega, tokens_same e1, show (ts.length + fuel) + 1 = ts.length + (fuel + 1) by omega, ih]
    cases tokens F (fuel + 1) rest <;> rfl

theorem tokensRead_same {a b : List Nat} (h : Same a b) (fuel : Nat) : tokensRead F (fuel + 1) a = tokensRead F (fuel + 1) b := by
  rw [tokensRead, tokensRead, lex_same h]

theorem read_then (hi : Implements F fl) {s : List Nat} {ts : List Tok} (h : Pattern fl s ts) {rest : List Nat} (hr : Tame rest) (fuel : Nat) :
    tokensRead F (ts.length + (fuel + 1)) (s ++ rest) = ts ++ tokensRead F (fuel + 1) rest := by
  induction h with
  | nil => simp only [List.length_nil, Nat.zero_add, List.nil_append]
  | @cons t tok s ts h hp ih =>
    have ht : Tame (s ++ rest) := by
      cases hp with
      | nil => exact hr
      | cons h _ => rw [List.append_assoc]; exact (written_tame h _).1
    obtain ⟨r', e1, e2⟩ := written_lex hi h ht
    rw [List.length_cons, show ts.length + 1 + (fuel + 1) = (ts.length + (fuel + 1)) + 1 by omega, tokensRead, List.append_assoc, e2]
    dsimp only
    rw [show ts.length + (fuel + 1) = (ts.length + fuel) + 1 by omega, tokensRead_same e1, show (ts.length + fuel) + 1 = ts.length + (fuel + 1) by omega, ih]
    rfl

/-- The tokens read before a lexical error. -/
theorem read_before_error (hi : Implements F fl) {s : List Nat} {ts : List Tok} (h : Pattern fl s ts) {rest : List Nat} (hr : Tame rest)
    (he : lex F rest = .throws) {fuel : Nat} (hf : ts.length < fuel) : tokensRead F fuel (s ++ rest) = ts := by
  obtain ⟨k, rfl⟩ : ∃ k, fuel = ts.length + (k + 1) := ⟨fuel - ts.length - 1, by omega⟩
  rw [read_then hi h hr, tokensRead, he]
  exact List.append_nil ts

/-- A lexical error after a pattern. -/
theorem error_after (hi : Implements F fl) {s : List Nat} {ts : List Tok} (h : Pattern fl s ts) {rest : List Nat} (hr : Tame rest)
    (he : lex F rest = .throws) {fuel : Nat} (hf : ts.length < fuel) : tokens F fuel (s ++ rest) = .throws := by
  obtain ⟨k, rfl⟩ : ∃ k, fuel = ts.length + (k + 1) := ⟨fuel - ts.length - 1, by omega⟩
  rw [pattern_then hi h hr, tokens, he]
  rfl

theorem doLex_error {s : List Nat} {c : Nat} {s1 : List Nat} (hg : getChar s = .ok (c, s1)) (hc : c ≠ End) {f : Feature} (hf : f ∈ F)
    (h : f.lex c (c :: s1) = some .throws) (hu : ∀ g : Feature, g ≠ f → g.lex c (c :: s1) = none) : lex F s = .throws := by
  unfold lex
  rw [doLex_eq hg hc, findSome_one hf h hu]
  rfl

theorem only_range (s : List Nat) (g : Feature) (h : g ≠ .charRange) : g.lex 91 s = none := by
  cases g <;> first | exact absurd rfl h | rfl

theorem only_count (s : List Nat) (g : Feature) (h : g ≠ .repetition) : g.lex 123 s = none := by
  cases g <;> first | exact absurd rfl h | rfl

theorem only_unicode (s : List Nat) (g : Feature) (h : g ≠ .unicode) : g.lex 0xF078 s = none := by
  cases g <;> first | exact absurd rfl h | rfl

/-- `[` without `]`. -/
theorem lex_open_bracket (hi : Implements F fl) {t : List Nat} (ht : Tidy (91 :: t)) (hno : ∀ c ∈ t, c % 0x1000 ≠ 93) :
    lex F (91 :: t) = .throws := by
  refine doLex_error (getChar_plain (by omega)) (by decide) hi.range (f := .charRange) ?_ (only_range _)
  change some (lexRange (91 :: t)) = _
  have h := lexRange_reads ht
  cases hr : lexRange (91 :: t) with
  | throws => rfl
  | bad => rw [hr] at h; exact h.elim
  | ok x =>
    rw [hr] at h
    obtain ⟨c, s1, h1, h2⟩ := h.2 (fun c hc => by
      rcases List.mem_cons.1 hc with rfl | hc
      · decide
      · exact hno c hc)
    rw [getChar_plain (by omega)] at h1
    cases h1
    exact absurd h2 (by decide)

/-- `{` without a digit. -/
theorem lex_bad_count (hi : Implements F fl) {t : List Nat} (ht : ∀ c s1, getChar t = .ok (c, s1) → isDigit c = false) :
    lex F (123 :: t) = .throws := by
  refine doLex_error (getChar_plain (by omega)) (by decide) hi.rep (f := .repetition) ?_ (only_count _)
  change some (lexCount (123 :: t)) = _
  unfold lexCount
  rw [getChar_plain (by omega), ok_bind]
  dsimp only
  rw [if_neg (by decide)]
  have h := getChar_sat t
  cases hg : getChar t with
  | throws => rfl
  | bad => rw [hg] at h; exact h.elim
  | ok x =>
    rw [ok_bind, ht x.1 x.2 hg]
    rfl

/-- `\x` without a hexadecimal digit or brace. -/
theorem lex_bad_code (hi : Implements F fl) {t : List Nat} (h123 : t.head? ≠ some 123) (hd : ∀ c s1, getChar t = .ok (c, s1) → isHexDigit c = false) :
    lex F (92 :: 120 :: t) = .throws := by
  refine doLex_error (getChar_quoted (by omega)) (by decide) hi.uni (f := .unicode) ?_ (only_unicode _)
  change some (lexUnicode (0xF078 :: t)) = _
  have hp : peekChar t ≠ 123 := by
    cases t with
    | nil => decide
    | cons a t => intro h; exact h123 (by rw [← h]; rfl)
  have e : readHexDigit (fun _ n => decide (n = 2)) (t.length + 3) [] t = .throws := by
    rw [show t.length + 3 = (t.length + 2) + 1 by omega, readHexDigit]
    have h := getChar_sat t
    cases hg : getChar t with
    | throws => rfl
    | bad => rw [hg] at h; exact h.elim
    | ok x =>
      rw [ok_bind]
      dsimp only
      rw [if_neg (by simp), hd x.1 x.2 hg]
      rfl
  unfold lexUnicode readUnicode
  rw [getChar_plain (by decide), ok_bind]
  dsimp only
  rw [if_neg hp, e]
  rfl

/-- A code beyond U+10FFFF. -/
theorem lex_big_code (hi : Implements F fl) {ds : List Nat} {c : Nat} (h : Hex ds c) (h1 : 0x10FFFF < c) (h2 : c < 2 ^ 32) (r : List Nat) :
    lex F (92 :: 120 :: 123 :: (ds ++ 125 :: r)) = .throws := by
  have hne : ds ≠ [] := by rintro rfl; have := hex_value h; simp at this; omega
  refine doLex_error (getChar_quoted (by omega)) (by decide) hi.uni (f := .unicode) ?_ (only_unicode _)
  change some (lexUnicode (0xF078 :: 123 :: (ds ++ 125 :: r))) = _
  unfold lexUnicode readUnicode
  rw [getChar_plain (by decide), ok_bind]
  dsimp only
  rw [if_pos (by rfl), getChar_plain (by decide), ok_bind]
  dsimp only
  have hall := hex_all h
  have e3 := readHexDigit_run (stop := fun ch n => decide (ch = End) || (decide (n ≠ 0) && decide (ch = 125))) ds (r.length + 2) [] (125 :: r) hall (by
    intro d hd k _
    obtain ⟨v, hv⟩ := hall d hd
    have := hexDigit_spec hv
    simp [this.2.2.2.1, this.2.2.2.2.1])
  rw [List.nil_append] at e3
  rw [show (ds ++ 125 :: r).length + 1 = ds.length + (r.length + 2) by simp; omega, e3, readHexDigit, getChar_plain (by decide), ok_bind]
  dsimp only
  have hl : ds.length ≠ 0 := by simpa using hne
  rw [if_pos (by simp [hl]), ok_bind]
  dsimp only
  rw [ungetChar, if_neg (by decide), getChar_plain (by decide), ok_bind]
  dsimp only
  rw [if_neg (by decide)]
  have : hexToDec ds = .throws := by
    unfold hexToDec
    rw [if_neg hne, hex_value h]
    dsimp only
    have e : (if c < 2 ^ 64 then c % 2 ^ 32 else MaxUnicode + 1) = c := by rw [if_pos (by omega), Nat.mod_eq_of_lt h2]
    rw [e, if_pos (by simp only [MaxUnicode]; omega)]
  rw [this]
  rfl

/-- A reserved character that names no class stays in the set. -/
theorem alterAll_keeps (F : List Feature) {c : Nat} (h : c < 256) (hn : classOf (0xF000 + c) = none) {cs : Finset Nat} (hc : 0xF000 + c ∈ cs) (neg : Bool) :
    (alterAll F cs neg).Sat True fun x => 0xF000 + c ∈ x.1 := by
  induction F with
  | nil => exact hc
  | cons f F ih =>
    change (alterAll F cs neg >>= fun x => f.alter x.1 x.2).Sat True _
    refine ih.bind fun x hx => ?_
    cases f <;> first | exact hx | skip
    · change (alterClasses x.1 x.2).Sat True _
      unfold alterClasses
      dsimp only
      split
      · exact trivial
      · change 0xF000 + c ∈ Finset.biUnion _ _
        rw [Finset.mem_biUnion]
        refine ⟨_, hx, ?_⟩
        simp [hn]
    · change 0xF000 + c ∈ alterCase x.1
      rw [alterCase, Finset.mem_union, Finset.mem_image]
      exact .inl ⟨_, hx, (control_case (by omega) (by omega)).2.1⟩
    · change 0xF000 + c ∈ alterGlyphs x.1
      rw [alterGlyphs, Finset.mem_biUnion]
      refine ⟨_, hx, ?_⟩
      split
      · rename_i k hk
        have := List.find?_some hk
        simpa using this
      · simp

/-- An escaped character without meaning. -/
theorem lex_bad_escape (hi : Implements F fl) {c : Nat} (h : c < 128) (h0 : c ≠ 0) (hx : c ≠ 120)
    (hc : charClass c = none) (hC : charClass (c + 32) = none) (hq : c ∉ fl.quotable) (r : List Nat) : lex F (92 :: c :: r) = .throws := by
  have hcl : classOf (0xF000 + c) = none := by
    have : ∀ n < 160, (charClass n).isNone = true → classTable.lookup n = none := by decide +kernel
    rw [classOf_ctl h]
    have e : classTable.lookup (if 65 ≤ c ∧ c ≤ 90 then c + 32 else c) = none := by
      split
      · exact this _ (by omega) (by rw [hC]; rfl)
      · exact this _ (by omega) (by rw [hc]; rfl)
    rw [e]; rfl
  simp only [Flavor.quotable, Flavor.special, List.mem_append, List.mem_cons, List.not_mem_nil, or_false, not_or] at hq
  have hd : doLex F (92 :: c :: r) = .ok (some (.letters {0xF000 + c} false, r)) := by
    refine doLex_builtin (getChar_quoted (by omega)) (by simp only [End]; omega) (fun g hg => ?_) ?_
    · have an : g = .andNot → c ≠ 38 ∧ c ≠ 126 := by
        rintro rfl
        have := hi.andNot.1 hg
        have h2 := hq.1.2
        rw [this] at h2
        simpa using h2
      cases g with
      | andNot =>
        have := an rfl
        unfold Feature.lex; dsimp only
        rw [control_or (by omega), control_or (by omega), if_neg (by omega)]
      | charRange => unfold Feature.lex; dsimp only; rw [control_or (by omega), control_or (by omega), if_neg (by omega)]
      | repetition => unfold Feature.lex; dsimp only; rw [control_or (by omega), control_or (by omega), if_neg (by omega)]
      | unicode => unfold Feature.lex; dsimp only; rw [control_or (by omega), if_neg (by omega)]
      | _ => rfl
    · rw [lexBuiltin_ctl (by omega)]
      have : inStr controls c = false := by
        unfold inStr controls
        rw [Nat.mod_eq_of_lt (by omega)]
        simp only [Bool.or_eq_false_iff, List.contains_eq_mem, decide_eq_false_iff_not, beq_eq_false_iff_ne]
        refine ⟨?_, h0⟩
        simp only [List.mem_cons, List.not_mem_nil, or_false, not_or]
        omega
      rw [this]
      simp
  unfold lex
  rw [hd, ok_bind]
  dsimp only
  have := alterAll_keeps F (c := c) (by omega) hcl (cs := {0xF000 + c}) (by simp) false
  cases ha : alterAll F {0xF000 + c} false with
  | throws => rfl
  | bad => rw [ha] at this; exact this.elim
  | ok x =>
    rw [ha] at this
    rw [ok_bind, if_pos]
    exact ⟨_, Finset.mem_filter.2 ⟨this, isControl_ctl (by omega)⟩⟩

end Pire.Lex
