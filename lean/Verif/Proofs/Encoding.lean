import Verif.Model.Encoding
import Verif.Spec.Utf8
import Verif.Proofs.FsmOps
import Verif.Proofs.Good
import Mathlib.Tactic.IntervalCases
import Mathlib.Tactic.NormNum

/-!
# Proofs about the encodings
-/

namespace Pire.Enc

open Pire.Spec Fsm

/-! ### Bit arithmetic -/

theorem and_3f (x : Nat) : x &&& 0x3F = x % 64 := Nat.and_two_pow_sub_one_eq_mod x 6
theorem and_7 (x : Nat) : x &&& 0x07 = x % 8 := Nat.and_two_pow_sub_one_eq_mod x 3
theorem and_f (x : Nat) : x &&& 0x0F = x % 16 := Nat.and_two_pow_sub_one_eq_mod x 4
theorem and_1f (x : Nat) : x &&& 0x1F = x % 32 := Nat.and_two_pow_sub_one_eq_mod x 5

theorem or_c0 {x : Nat} (h : x < 64) : 0xC0 ||| x = 0xC0 + x := by
  have := Nat.two_pow_add_eq_or_of_lt (i := 6) h 3
  simpa using this.symm
theorem or_80 {x : Nat} (h : x < 128) : 0x80 ||| x = 0x80 + x := by
  have := Nat.two_pow_add_eq_or_of_lt (i := 7) h 1
  simpa using this.symm
theorem or_e0 {x : Nat} (h : x < 32) : 0xE0 ||| x = 0xE0 + x := by
  have := Nat.two_pow_add_eq_or_of_lt (i := 5) h 7
  simpa using this.symm
theorem or_f0 {x : Nat} (h : x < 16) : 0xF0 ||| x = 0xF0 + x := by
  have := Nat.two_pow_add_eq_or_of_lt (i := 4) h 15
  simpa using this.symm

theorem shl_or {r x : Nat} (h : x < 64) : (r <<< 6) ||| x = r * 64 + x := by
  rw [Nat.shiftLeft_eq, Nat.mul_comm]
  have := Nat.two_pow_add_eq_or_of_lt (i := 6) h r
  simp only [show (2 : Nat) ^ 6 = 64 from rfl] at *
  omega

theorem cont_iff {b : Nat} (h : b < 256) : b &&& 0xC0 = 0x80 ↔ IsCont b := by
  unfold IsCont
  have : ∀ b < 256, b &&& 0xC0 = 0x80 ↔ 0x80 ≤ b ∧ b < 0xC0 := by decide +kernel
  exact this b h

theorem utf8Cont_some {r b : Nat} (h : b < 256) (hc : IsCont b) : utf8Cont r b = some (r * 64 + (b - 0x80)) := by
  unfold utf8Cont
  rw [if_neg (by simpa using (cont_iff h).2 hc), and_3f, shl_or (Nat.mod_lt _ (by omega))]
  unfold IsCont at hc
  exact congrArg some (by omega)

theorem utf8Cont_none {r b : Nat} (h : b < 256) (hc : ¬ IsCont b) : utf8Cont r b = none := by
  unfold utf8Cont
  rw [if_pos (by simpa using fun h' => hc ((cont_iff h).1 h'))]

theorem runeLen_eq {a : Nat} (h : a < 256) : utf8RuneLen a =
    if a < 0x80 then 1 else if a < 0xC0 then 0 else if a < 0xE0 then 2 else if a < 0xF0 then 3
    else if a < 0xF8 then 4 else 0 := by
  have : ∀ a < 256, utf8RuneLen a =
    if a < 0x80 then 1 else if a < 0xC0 then 0 else if a < 0xE0 then 2 else if a < 0xF0 then 3
    else if a < 0xF8 then 4 else 0 := by decide +kernel
  exact this a h

/-! ### Decoding -/

/-- The decoder finds exactly the characters of the specification, followed by anything. -/
theorem readRune_ok_iff {s : List Nat} (hs : ∀ b ∈ s, b < 256) {c n : Nat} :
    utf8ReadRune s = .ok c n ↔ ∃ w t, s = w ++ t ∧ w.length = n ∧ Utf8Char w c := by
  constructor
  · intro h
    cases s with
    | nil => simp [utf8ReadRune] at h
    | cons a s =>
      have ha := hs a (by simp)
      simp only [utf8ReadRune] at h
      split at h
      · exact absurd h (by simp)
      rename_i hl
      split at h
      · exact absurd h (by simp)
      rename_i h0
      have hlen := runeLen_eq ha
      split at h
      · rename_i h1
        have h80 : ¬ a < 0x80 := by intro h'; rw [if_pos h'] at hlen; omega
        rw [if_neg h80] at hlen
        have hC0 : ¬ a < 0xC0 := by intro h'; rw [if_pos h'] at hlen; omega
        rw [if_neg hC0] at hlen
        obtain ⟨b, s, rfl⟩ : ∃ b s', s = b :: s' := by
          cases s with
          | nil => simp at hl; omega
          | cons b s => exact ⟨b, s, rfl⟩
        have hb := hs b (by simp)
        by_cases cb : IsCont b
        swap
        · simp [utf8Cont_none hb cb] at h
        simp only [List.getD_cons_zero, utf8Cont_some hb cb] at h
        split at h
        · rename_i h2
          have hE0 : ¬ a < 0xE0 := by intro h'; rw [if_pos h'] at hlen; omega
          rw [if_neg hE0] at hlen
          obtain ⟨d, s, rfl⟩ : ∃ b s', s = b :: s' := by
            cases s with
            | nil => simp at hl; omega
            | cons b s => exact ⟨b, s, rfl⟩
          have hd := hs d (by simp)
          by_cases cd : IsCont d
          swap
          · simp [utf8Cont_none hd cd] at h
          simp only [List.getD_cons_succ, List.getD_cons_zero, utf8Cont_some hd cd] at h
          split at h
          · rename_i h3
            have hF0 : ¬ a < 0xF0 := by intro h'; rw [if_pos h'] at hlen; omega
            rw [if_neg hF0] at hlen
            have hF8 : a < 0xF8 := by
              by_contra h'; rw [if_neg h'] at hlen; omega
            rw [if_pos hF8] at hlen
            obtain ⟨e, s, rfl⟩ : ∃ b s', s = b :: s' := by
              cases s with
              | nil => simp at hl; omega
              | cons b s => exact ⟨b, s, rfl⟩
            have he := hs e (by simp)
            by_cases ce : IsCont e
            swap
            · simp [utf8Cont_none he ce] at h
            simp only [List.getD_cons_zero, utf8Cont_some he ce, Decoded.ok.injEq, hlen] at h
            obtain ⟨hc, rfl⟩ := h
            refine ⟨[a, b, d, e], s, rfl, rfl, ?_⟩
            have : c = (a - 0xF0) * 262144 + (b - 0x80) * 4096 + (d - 0x80) * 64 + (e - 0x80) := by
              rw [← hc]
              simp only [utf8LeadMask, List.getD_cons_succ, List.getD_cons_zero, and_7]
              omega
            rw [this]
            exact .four (by omega) hF8 cb cd ce
          · rename_i h3
            have hF0 : a < 0xF0 := by
              by_contra h'; rw [if_neg h'] at hlen; split at hlen <;> omega
            rw [if_pos hF0] at hlen
            simp only [Decoded.ok.injEq, hlen] at h
            obtain ⟨hc, rfl⟩ := h
            refine ⟨[a, b, d], s, rfl, rfl, ?_⟩
            have : c = (a - 0xE0) * 4096 + (b - 0x80) * 64 + (d - 0x80) := by
              rw [← hc]
              simp only [utf8LeadMask, List.getD_cons_succ, List.getD_cons_zero, and_f]
              omega
            rw [this]
            exact .three (by omega) hF0 cb cd
        · rename_i h2
          have hE0 : a < 0xE0 := by
            by_contra h'; rw [if_neg h'] at hlen; split at hlen
            · omega
            · split at hlen <;> omega
          rw [if_pos hE0] at hlen
          simp only [Decoded.ok.injEq, hlen] at h
          obtain ⟨hc, rfl⟩ := h
          refine ⟨[a, b], s, rfl, rfl, ?_⟩
          have : c = (a - 0xC0) * 64 + (b - 0x80) := by
            rw [← hc]
            simp only [utf8LeadMask, List.getD_cons_succ, List.getD_cons_zero, and_1f]
            omega
          rw [this]
          exact .two (by omega) hE0 cb
      · rename_i h1
        have h80 : a < 0x80 := by
          by_contra h'; rw [if_neg h'] at hlen
          split at hlen
          · omega
          · split at hlen
            · omega
            · split at hlen
              · omega
              · split at hlen <;> omega
        rw [if_pos h80] at hlen
        simp only [Decoded.ok.injEq, hlen] at h
        obtain ⟨rfl, rfl⟩ := h
        exact ⟨[a], s, rfl, rfl, .one h80⟩
  · rintro ⟨w, t, rfl, rfl, hw⟩
    cases hw with
    | one ha =>
      have hlen : utf8RuneLen c = 1 := by rw [runeLen_eq (by omega), if_pos ha]
      simp [utf8ReadRune, hlen]
    | @two a b h1 h2 cb =>
      have hlen : utf8RuneLen a = 2 := by
        rw [runeLen_eq (by omega), if_neg (by omega), if_neg (by omega), if_pos h2]
      simp only [utf8ReadRune, List.cons_append, List.nil_append, hlen, List.getD_cons_zero, List.length_cons, List.length_nil]
      rw [if_neg (by omega), if_neg (by omega), if_pos (by omega), utf8Cont_some (hs b (by simp)) cb]
      simp only [utf8LeadMask, List.getD_cons_succ, List.getD_cons_zero, and_1f]
      rw [if_neg (by omega)]
      unfold IsCont at *
      simp only [List.length_cons, List.length_nil, Decoded.ok.injEq, and_true, Nat.reduceAdd]
      omega
    | @three a b d h1 h2 cb cd =>
      have hlen : utf8RuneLen a = 3 := by
        rw [runeLen_eq (by omega), if_neg (by omega), if_neg (by omega), if_neg (by omega), if_pos h2]
      simp only [utf8ReadRune, List.cons_append, List.nil_append, hlen, List.getD_cons_zero, List.length_cons, List.length_nil]
      rw [if_neg (by omega), if_neg (by omega), if_pos (by omega), utf8Cont_some (hs b (by simp)) cb]
      simp only [List.getD_cons_succ, List.getD_cons_zero]
      rw [if_pos (by omega), utf8Cont_some (hs d (by simp)) cd]
      simp only [utf8LeadMask, List.getD_cons_succ, List.getD_cons_zero, and_f]
      rw [if_neg (by omega)]
      unfold IsCont at *
      simp only [List.length_cons, List.length_nil, Decoded.ok.injEq, and_true, Nat.reduceAdd]
      omega
    | @four a b d e h1 h2 cb cd ce =>
      have hlen : utf8RuneLen a = 4 := by
        rw [runeLen_eq (by omega), if_neg (by omega), if_neg (by omega), if_neg (by omega), if_neg (by omega), if_pos h2]
      simp only [utf8ReadRune, List.cons_append, List.nil_append, hlen, List.getD_cons_zero, List.length_cons, List.length_nil]
      rw [if_neg (by omega), if_neg (by omega), if_pos (by omega), utf8Cont_some (hs b (by simp)) cb]
      simp only [List.getD_cons_succ, List.getD_cons_zero]
      rw [if_pos (by omega), utf8Cont_some (hs d (by simp)) cd]
      simp only [List.getD_cons_succ, List.getD_cons_zero]
      rw [if_pos (by omega), utf8Cont_some (hs e (by simp)) ce]
      simp only [utf8LeadMask, List.getD_cons_succ, List.getD_cons_zero, and_7]
      unfold IsCont at *
      simp only [List.length_cons, List.length_nil, Decoded.ok.injEq, and_true, Nat.reduceAdd]
      omega

/-- Characters have one to four bytes. -/
theorem Utf8Char.length {w : List Nat} {c : Nat} (h : Utf8Char w c) : 1 ≤ w.length ∧ w.length ≤ 4 := by
  cases h <;> simp

theorem Utf8Char.bytes {w : List Nat} {c : Nat} (h : Utf8Char w c) : ∀ b ∈ w, b < 248 := by
  cases h <;> simp [IsCont] at * <;> omega

theorem Utf8Char.lt {w : List Nat} {c : Nat} (h : Utf8Char w c) : c < 0x200000 := by
  cases h <;> (try unfold IsCont at *) <;> omega

/-- The textbook encoding is a character of the specification. -/
theorem utf8_char {c : Nat} (h : c < 0x200000) : Utf8Char (Spec.utf8 c) c := by
  unfold Spec.utf8
  split
  · exact .one ‹_›
  split
  · have := Utf8Char.two (a := 0xC0 + c / 64) (b := 0x80 + c % 64) (by omega) (by omega) ⟨by omega, by omega⟩
    convert this using 1; omega
  split
  · have := Utf8Char.three (a := 0xE0 + c / 4096) (b := 0x80 + c / 64 % 64) (c := 0x80 + c % 64) (by omega) (by omega)
      ⟨by omega, by omega⟩ ⟨by omega, by omega⟩
    convert this using 1; omega
  · have := Utf8Char.four (a := 0xF0 + c / 262144) (b := 0x80 + c / 4096 % 64) (c := 0x80 + c / 64 % 64) (d := 0x80 + c % 64)
      (by omega) (by omega) ⟨by omega, by omega⟩ ⟨by omega, by omega⟩ ⟨by omega, by omega⟩
    convert this using 1; omega

/-- The code's encoder is the textbook one. -/
theorem utf8ToLocal_eq {c : Nat} (h : c < 0x200000) : utf8ToLocal c = Spec.utf8 c := by
  unfold utf8ToLocal Spec.utf8 utf8RuneLenByUcs utf8PutRune
  have e6 : c >>> 6 = c / 64 := Nat.shiftRight_eq_div_pow c 6
  have e12 : c >>> 12 = c / 4096 := Nat.shiftRight_eq_div_pow c 12
  have e18 : c >>> 18 = c / 262144 := Nat.shiftRight_eq_div_pow c 18
  by_cases h1 : c < 0x80
  · simp [h1, overwrite, byte]; omega
  by_cases h2 : c < 0x800
  · simp only [h1, h2, if_false, if_true, List.length_replicate, byte, and_3f, e6]
    rw [if_neg (by omega), or_c0 (by omega), or_80 (by omega)]
    simp only [overwrite, List.length_cons, List.length_nil, List.replicate, List.drop]
    simp; omega
  by_cases h3 : c < 0x10000
  · simp only [h1, h2, h3, if_false, if_true, List.length_replicate, byte, and_3f, e6, e12]
    rw [if_neg (by omega), or_e0 (by omega), or_80 (by omega), or_80 (by omega)]
    simp only [overwrite, List.length_cons, List.length_nil, List.replicate, List.drop]
    simp; omega
  · simp only [h1, h2, h3, h, if_false, if_true, List.length_replicate, byte, and_3f, and_7, e6, e12, e18]
    rw [if_neg (by omega), or_f0 (by omega), or_80 (by omega), or_80 (by omega), or_80 (by omega)]
    simp only [overwrite, List.length_cons, List.length_nil, List.replicate, List.drop]
    simp; omega

/-! ### Decoding a whole range -/

/-- Whatever the bytes, the loop never reads past the end. -/
theorem decodeFuel_isSome (e : Encoding) (n : Nat) (s : List Nat) : (e.decodeFuel n s).isSome := by
  induction n generalizing s with
  | zero => cases s <;> simp [Encoding.decodeFuel]
  | succ n ih =>
    cases s with
    | nil => simp [Encoding.decodeFuel]
    | cons a s =>
      have hno : e.fromLocal (a :: s) ≠ .overread := by
        cases e
        · simp only [Encoding.fromLocal, latin1FromLocal]; split <;> simp
        · simp only [Encoding.fromLocal, utf8ReadRune]
          repeat' split
          all_goals simp
      simp only [Encoding.decodeFuel]
      split
      · exact absurd ‹_› hno
      · simp
      · simp
      · simpa using ih _

theorem fromLocal_len_pos {e : Encoding} {s : List Nat} {c n : Nat} (h : e.fromLocal s = .ok c n) : 1 ≤ n ∧ n ≤ s.length := by
  cases e
  · cases s with
    | nil => simp [Encoding.fromLocal, latin1FromLocal] at h
    | cons a s =>
      simp only [Encoding.fromLocal, latin1FromLocal] at h
      split at h
      · exact absurd h (by simp)
      · simp only [Decoded.ok.injEq] at h; simp; omega
  · cases s with
    | nil => simp [Encoding.fromLocal, utf8ReadRune] at h
    | cons a s =>
      simp only [Encoding.fromLocal, utf8ReadRune] at h
      repeat' split at h
      all_goals first
        | (simp only [Decoded.ok.injEq] at h; simp only [List.length_cons]; omega)
        | (cases h; done)

/-- The fuel does not matter once there is as much as bytes. -/
theorem decodeFuel_mono (e : Encoding) {n m : Nat} {s : List Nat} (hn : s.length ≤ n) (hm : s.length ≤ m) :
    e.decodeFuel n s = e.decodeFuel m s := by
  induction n generalizing s m with
  | zero =>
    cases s with
    | nil => cases m <;> rfl
    | cons a s => simp at hn
  | succ n ih =>
    cases s with
    | nil => cases m <;> rfl
    | cons a s =>
      cases m with
      | zero => simp at hm
      | succ m =>
        simp only [Encoding.decodeFuel]
        split
        · rfl
        · rfl
        · rfl
        · rename_i h
          have := fromLocal_len_pos h
          rw [ih (m := m)]
          · simp only [List.length_drop, List.length_cons] at *; omega
          · simp only [List.length_drop, List.length_cons] at *; omega

theorem decode_cons {e : Encoding} {s : List Nat} {c n : Nat} (h : e.fromLocal s = .ok c n) :
    e.decode s = (e.decode (s.drop n)).map fun r => r.map (c :: ·) := by
  have h1 := fromLocal_len_pos h
  cases s with
  | nil => simp at h1; omega
  | cons a s =>
    unfold Encoding.decode
    simp only [List.length_cons, Encoding.decodeFuel, h]
    rw [decodeFuel_mono e (m := ((a :: s).drop n).length)]
    · simp only [List.length_drop, List.length_cons] at *; omega
    · exact le_rfl

/-! ### The UTF-8 dot -/

/-- Words spelled by an entry edge and a path to `t`. -/
def graphWords (A : Nat → Nat → Prop) (N : Nat → Nat → Nat → Prop) (t : Nat) : Language Nat :=
  {w | ∃ c v p, w = c :: v ∧ A c p ∧ Run N p v t}

/-- `g` extends `f` by fresh states, entered from the old final states by the labels `A` and connected by `N`. -/
theorem lang_append_graph {f g : Fsm} (hf : f.WF) {A : Nat → Nat → Prop} {N : Nat → Nat → Nat → Prop} {t : Nat}
    (hA : ∀ c p, A c p → c ≠ 257 ∧ f.size ≤ p) (hN : ∀ q c p, N q c p → c ≠ 257 ∧ f.size ≤ q ∧ f.size ≤ p)
    (hE : ∀ q c p, g.Edge q c p ↔ f.Edge q c p ∨ (q ∈ f.finals ∧ A c p) ∨ N q c p)
    (hi : g.initial = f.initial) (hF : g.finals = {t}) (ht : f.size ≤ t) :
    g.Lang = f.Lang * graphWords A N t := by
  have fresh : ∀ {q w p}, Run g.Edge q w p → f.size ≤ q → Run N q w p := by
    intro q w p hr
    induction hr with
    | refl => intro _; exact .refl _
    | eps e h ih =>
      intro hq
      rcases (hE _ _ _).1 e with e | ⟨h1, _⟩ | e
      · have := (hf.edge_lt e).1; omega
      · have := hf.fin_lt _ h1; omega
      · exact absurd rfl (hN _ _ _ e).1
    | step hc e h ih =>
      intro hq
      rcases (hE _ _ _).1 e with e | ⟨h1, _⟩ | e
      · have := (hf.edge_lt e).1; omega
      · have := hf.fin_lt _ h1; omega
      · exact .step hc e (ih (hN _ _ _ e).2.2)
  ext w
  rw [Language.mem_mul, mem_lang]
  constructor
  · rintro ⟨p, hp, hr⟩
    rw [hF, Finset.mem_singleton] at hp
    subst hp
    rw [hi] at hr
    have key : ∀ {q w p'}, Run g.Edge q w p' → q < f.size → p' = p →
        ∃ r ∈ f.finals, ∃ u c v p1, A c p1 ∧ Run N p1 v p ∧ w = u ++ c :: v ∧ Run f.Edge q u r := by
      intro q w p' hr
      induction hr with
      | refl => intro h1 h2; omega
      | eps e h ih =>
        intro hq hp
        rcases (hE _ _ _).1 e with e | ⟨_, ha⟩ | e
        · obtain ⟨r, hr, u, c, v, p1, hc, hv, hw, hrun⟩ := ih (hf.edge_lt e).2.2 hp
          exact ⟨r, hr, u, c, v, p1, hc, hv, hw, .eps e hrun⟩
        · exact absurd rfl (hA _ _ ha).1
        · exact absurd rfl (hN _ _ _ e).1
      | @step q c q' w p' hc e h ih =>
        intro hq hp
        rcases (hE _ _ _).1 e with e | ⟨hfin, ha⟩ | e
        · obtain ⟨r, hr, u, c', v, p1, hc', hv, hw, hrun⟩ := ih (hf.edge_lt e).2.2 hp
          exact ⟨r, hr, c :: u, c', v, p1, hc', hv, by simp [hw], .step hc e hrun⟩
        · subst hp
          exact ⟨q, hfin, [], c, w, q', ha, fresh h (hA _ _ ha).2, rfl, .refl _⟩
        · have := (hN _ _ _ e).2.1; omega
    obtain ⟨r, hr', u, c, v, p1, hc, hv, hw, hrun⟩ := key hr hf.init_lt rfl
    exact ⟨u, ⟨r, hr', hrun⟩, c :: v, ⟨c, v, p1, rfl, hc, hv⟩, hw.symm⟩
  · rintro ⟨u, ⟨r, hr, hrun⟩, _, ⟨c, v, p1, rfl, hc, hv⟩, rfl⟩
    refine ⟨t, by simp [hF], ?_⟩
    rw [hi]
    have h1 : Run g.Edge f.initial u r := hrun.mono fun a c b e => (hE _ _ _).2 (.inl e)
    have h2 : Run g.Edge p1 v t := hv.mono fun a c b e => (hE _ _ _).2 (.inr (.inr e))
    exact h1.trans (.step (hA _ _ hc).1 ((hE _ _ _).2 (.inr (.inl ⟨hr, hc⟩))) h2)

theorem foldl_cf_fields (i : Nat) (l : List Nat) (f : Fsm) :
    let g := l.foldl (fun g c => g.connectFinal (g.size - i - 1) c) f
    g.size = f.size ∧ g.initial = f.initial ∧ g.finals = f.finals ∧ g.letters = f.letters := by
  induction l generalizing f with
  | nil => simp
  | cons c l ih =>
    have := ih (f.connectFinal (f.size - i - 1) c)
    simpa using this

theorem foldl_cf_edge (i : Nat) (l : List Nat) (f : Fsm) (q c p : Nat) :
    (l.foldl (fun g c => g.connectFinal (g.size - i - 1) c) f).Edge q c p ↔
      f.Edge q c p ∨ (q ∈ f.finals ∧ p = f.size - i - 1 ∧ f.key c ∈ l) := by
  induction l generalizing f with
  | nil => simp
  | cons d l ih =>
    rw [List.foldl_cons, ih, edge_connectFinal, key_congr (connectFinal_letters _ _ _)]
    simp only [connectFinal_finals, connectFinal_size, List.mem_cons]
    tauto

theorem foldl_cf_wf (i : Nat) {l : List Nat} {f : Fsm} (h : f.WF) (hl : ∀ c ∈ l, c < 264) :
    (l.foldl (fun g c => g.connectFinal (g.size - i - 1) c) f).WF := by
  induction l generalizing f with
  | nil => exact h
  | cons d l ih =>
    have := h.init_lt
    exact ih (h.connectFinal (by omega) (hl d (by simp))) (fun c hc => hl c (by simp [hc]))

theorem foldl_cf_isAlt (i : Nat) (l : List Nat) (g : Fsm) (h : g.isAlt = false) :
    (l.foldl (fun g c => g.connectFinal (g.size - i - 1) c) g).isAlt = false := by
  induction l generalizing g with
  | nil => exact h
  | cons c l ih => rw [List.foldl_cons]; exact ih _ rfl

theorem mem_letterRange {r : Nat × Nat} {c : Nat} : c ∈ letterRange r ↔ r.1 ≤ c ∧ c < r.2 := by
  unfold letterRange
  rw [List.mem_range'_1]
  omega

/-- The lead bytes of an `i+1`-byte character. -/
def lead (i c : Nat) : Prop := (utfFirst.getD i (0, 0)).1 ≤ c ∧ c < (utfFirst.getD i (0, 0)).2

theorem dotFirst_spec (n : Nat) (f : Fsm) (hr : f.Raw) (hw : f.WF) (ha : f.isAlt = false) :
    let g := (List.range n).foldl (fun f i =>
      (letterRange (utfFirst.getD i (0, 0))).foldl (fun f letter => f.connectFinal (f.size - i - 1) letter) f) f
    g.size = f.size ∧ g.initial = f.initial ∧ g.finals = f.finals ∧ g.letters = f.letters ∧ g.WF ∧ g.isAlt = false ∧
    ∀ q c p, g.Edge q c p ↔ f.Edge q c p ∨ (q ∈ f.finals ∧ ∃ i < n, p = f.size - i - 1 ∧ lead i c) := by
  induction n with
  | zero => simp [hw, ha]
  | succ n ih =>
    simp only [List.range_succ, List.foldl_append, List.foldl_cons, List.foldl_nil] at ih ⊢
    generalize (List.range n).foldl _ f = g at ih ⊢
    obtain ⟨h1, h2, h3, h4, h5, h7, h6⟩ := ih
    obtain ⟨k1, k2, k3, k4⟩ := foldl_cf_fields n (letterRange (utfFirst.getD n (0, 0))) g
    refine ⟨k1.trans h1, k2.trans h2, k3.trans h3, k4.trans h4, foldl_cf_wf n h5 ?_, foldl_cf_isAlt _ _ _ h7, ?_⟩
    · intro c hc
      rw [mem_letterRange] at hc
      have : (utfFirst.getD n (0, 0)).2 ≤ 0xF8 := by
        unfold utfFirst
        rcases n with _ | _ | _ | _ | n <;> simp
      omega
    · intro q c p
      rw [foldl_cf_edge, h6, h1, h3, key_raw (show g.Raw from h4.trans hr), mem_letterRange]
      constructor
      · rintro ((h | ⟨hq, i, hi, hp, hl⟩) | ⟨hq, hp, hl⟩)
        · exact .inl h
        · exact .inr ⟨hq, i, by omega, hp, hl⟩
        · exact .inr ⟨hq, n, by omega, hp, hl⟩
      · rintro (h | ⟨hq, i, hi, hp, hl⟩)
        · exact .inl (.inl h)
        · by_cases hin : i = n
          · subst hin; exact .inr ⟨hq, hp, hl⟩
          · exact .inl (.inr ⟨hq, i, by omega, hp, hl⟩)

theorem foldl_connect_spec (a b : Nat) (l : List Nat) (f : Fsm) (hw : f.WF) (h1 : a < f.size) (h2 : b < f.size)
    (hl : ∀ c ∈ l, c < 264) (ha : f.isAlt = false) :
    let g := l.foldl (fun f letter => f.connect a b letter) f
    g.size = f.size ∧ g.initial = f.initial ∧ g.finals = f.finals ∧ g.letters = f.letters ∧ g.WF ∧ g.isAlt = false ∧
    ∀ q c p, g.Edge q c p ↔ f.Edge q c p ∨ (q = a ∧ p = b ∧ f.key c ∈ l) := by
  induction l generalizing f with
  | nil => simp [hw, ha]
  | cons d l ih =>
    obtain ⟨k1, k2, k3, k4, k5, k6, k7⟩ := ih (f.connect a b d) (hw.connect h1 h2 (hl d (by simp))) h1 h2
      (fun c hc => hl c (by simp [hc])) rfl
    refine ⟨k1, k2, k3, k4, k5, k6, ?_⟩
    intro q c p
    rw [List.foldl_cons, k7, edge_connect, key_congr (g := f.connect a b d) (f := f) rfl]
    simp only [List.mem_cons]
    tauto

theorem dotNext_spec (last n : Nat) (f : Fsm) (hr : f.Raw) (hw : f.WF) (ha : f.isAlt = false) (hn : last + n < f.size) :
    let g := (List.range n).foldl (fun f i =>
      (letterRange utfNext).foldl (fun f letter => f.connect (last + i) (last + i + 1) letter) f) f
    g.size = f.size ∧ g.initial = f.initial ∧ g.finals = f.finals ∧ g.letters = f.letters ∧ g.WF ∧ g.isAlt = false ∧
    ∀ q c p, g.Edge q c p ↔ f.Edge q c p ∨ (∃ i < n, q = last + i ∧ p = last + i + 1 ∧ IsCont c) := by
  induction n with
  | zero => simp [hw, ha]
  | succ n ih =>
    simp only [List.range_succ, List.foldl_append, List.foldl_cons, List.foldl_nil] at ih ⊢
    have ih := ih (by omega)
    generalize (List.range n).foldl _ f = g at ih ⊢
    obtain ⟨h1, h2, h3, h4, h5, h7, h6⟩ := ih
    obtain ⟨k1, k2, k3, k4, k5, k6, k7⟩ := foldl_connect_spec (last + n) (last + n + 1) (letterRange utfNext) g h5
      (by omega) (by omega) (by
        intro c hc
        rw [mem_letterRange] at hc
        have : utfNext.2 = 0xC0 := rfl
        omega) h7
    refine ⟨k1.trans h1, k2.trans h2, k3.trans h3, k4.trans h4, k5, k6, ?_⟩
    intro q c p
    rw [k7, h6, key_raw (show g.Raw from h4.trans hr), mem_letterRange]
    change _ ∨ (_ ∧ _ ∧ IsCont c) ↔ _
    constructor
    · rintro ((h | ⟨i, hi, hp⟩) | ⟨hq, hp, hl⟩)
      · exact .inl h
      · exact .inr ⟨i, by omega, hp⟩
      · exact .inr ⟨n, by omega, hq, hp, hl⟩
    · rintro (h | ⟨i, hi, hq, hp, hl⟩)
      · exact .inl (.inl h)
      · by_cases hin : i = n
        · subst hin; exact .inr ⟨hq, hp, hl⟩
        · exact .inl (.inr ⟨i, by omega, hq, hp, hl⟩)

theorem utf8AppendDot_spec {f : Fsm} (h : f.WF) (hraw : f.Raw) (ha : f.isAlt = false) :
    let g := utf8AppendDot f
    g.size = f.size + 4 ∧ g.initial = f.initial ∧ g.finals = {f.size + 3} ∧ g.Raw ∧ g.WF ∧ g.isAlt = false ∧ g.determined = false ∧
    ∀ q c p, g.Edge q c p ↔ f.Edge q c p ∨ (q ∈ f.finals ∧ ∃ i < 4, p = f.size + 4 - i - 1 ∧ lead i c) ∨
      (∃ i < 3, q = f.size + i ∧ p = f.size + i + 1 ∧ IsCont c) := by
  have hw1 := h.resize (n := f.size + 4) (by omega)
  obtain ⟨a1, a2, a3, a4, a5, a6, a7⟩ := dotFirst_spec 4 (f.resize (f.size + 4)) hraw hw1 ha
  obtain ⟨b1, b2, b3, b4, b5, b6, b7⟩ := dotNext_spec f.size 3 (utf8DotFirst (f.resize (f.size + 4))) (a4.trans hraw) a5 a6 (by
    have : (utf8DotFirst (f.resize (f.size + 4))).size = f.size + 4 := a1
    omega)
  have e1 : (utf8DotNext f.size (utf8DotFirst (f.resize (f.size + 4)))).size = f.size + 4 := b1.trans a1
  have e2 : (utf8DotNext f.size (utf8DotFirst (f.resize (f.size + 4)))).initial = f.initial := b2.trans a2
  have e4 : (utf8DotNext f.size (utf8DotFirst (f.resize (f.size + 4)))).letters = f.letters := b4.trans a4
  have e5 : (utf8DotNext f.size (utf8DotFirst (f.resize (f.size + 4)))).WF := b5
  have e6 : (utf8DotNext f.size (utf8DotFirst (f.resize (f.size + 4)))).isAlt = false := b6
  have e7 : ∀ q c p, (utf8DotNext f.size (utf8DotFirst (f.resize (f.size + 4)))).Edge q c p ↔
      (f.Edge q c p ∨ (q ∈ f.finals ∧ ∃ i < 4, p = f.size + 4 - i - 1 ∧ lead i c)) ∨
      (∃ i < 3, q = f.size + i ∧ p = f.size + i + 1 ∧ IsCont c) := by
    intro q c p
    refine (b7 q c p).trans ?_
    rw [show (utf8DotFirst (f.resize (f.size + 4))).Edge q c p ↔ _ from a7 q c p, resize_edge h (by omega)]
    simp only [resize_finals, resize_size]
  have hg : utf8AppendDot f = { (utf8DotNext f.size (utf8DotFirst (f.resize (f.size + 4)))).clearFinal.setFinal
      ((utf8DotNext f.size (utf8DotFirst (f.resize (f.size + 4)))).clearFinal.size - 1) true with determined := false } := by
    simp only [utf8AppendDot, utfMaxLen]
  rw [hg]
  generalize utf8DotNext f.size (utf8DotFirst (f.resize (f.size + 4))) = k at *
  refine ⟨e1, e2, ?_, e4.trans hraw, ?_, e6, rfl, ?_⟩
  · simp [setFinal, clearFinal, e1]
  · refine e5.congr rfl ?_ ?_ rfl rfl
    · simp [setFinal, clearFinal, e1, e2]; have := h.init_lt; omega
    · simp [setFinal, clearFinal, e1]
  · intro q c p
    have hk : ({ k.clearFinal.setFinal (k.clearFinal.size - 1) true with determined := false } : Fsm).Edge = k.Edge :=
      edge_congr rfl rfl
    rw [hk, e7, or_assoc]

/-- Bytes accepted after the lead byte. -/
theorem cont_run {n p t : Nat} {v : List Nat} :
    Run (fun q c p => ∃ i < 3, q = n + i ∧ p = n + i + 1 ∧ IsCont c) p v t →
    t = p + v.length ∧ ∀ b ∈ v, IsCont b := by
  intro h
  induction h with
  | refl => simp
  | eps e _ _ => obtain ⟨i, _, _, _, hc⟩ := e; unfold IsCont at hc; omega
  | step hc e h ih =>
    obtain ⟨i, hi, hq, hp, hcc⟩ := e
    refine ⟨by rw [List.length_cons]; omega, ?_⟩
    intro b hb
    rcases List.mem_cons.1 hb with rfl | hb
    · exact hcc
    · exact ih.2 b hb

theorem run_cont {n k : Nat} {v : List Nat} (hk : k + v.length ≤ 3) (hv : ∀ b ∈ v, IsCont b) :
    Run (fun q c p => ∃ i < 3, q = n + i ∧ p = n + i + 1 ∧ IsCont c) (n + k) v (n + k + v.length) := by
  induction v generalizing k with
  | nil => exact .refl _
  | cons b v ih =>
    have hb := hv b (by simp)
    have h1 : b ≠ 257 := by unfold IsCont at hb; omega
    simp only [List.length_cons] at hk ⊢
    refine .step h1 ⟨k, by omega, rfl, rfl, hb⟩ ?_
    have := ih (k := k + 1) (by omega) (fun c hc => hv c (by simp [hc]))
    rwa [show n + k + (v.length + 1) = n + (k + 1) + v.length by omega]

theorem lang_utf8AppendDot {f : Fsm} (h : f.WF) (hraw : f.Raw) (ha : f.isAlt = false) :
    (utf8AppendDot f).Lang = f.Lang * utf8Dot := by
  obtain ⟨h1, h2, h3, h4, h5, h6, h7, h8⟩ := utf8AppendDot_spec h hraw ha
  have hlead : ∀ i c, i < 4 → (lead i c ↔ (i = 0 ∧ c < 0x80) ∨ (i = 1 ∧ 0xC0 ≤ c ∧ c < 0xE0) ∨ (i = 2 ∧ 0xE0 ≤ c ∧ c < 0xF0) ∨
      (i = 3 ∧ 0xF0 ≤ c ∧ c < 0xF8)) := by
    intro i c hi
    unfold lead utfFirst
    interval_cases i <;> simp
  rw [lang_append_graph h (A := fun c p => ∃ i < 4, p = f.size + 4 - i - 1 ∧ lead i c)
    (N := fun q c p => ∃ i < 3, q = f.size + i ∧ p = f.size + i + 1 ∧ IsCont c) ?_ ?_ h8 h2 h3 (by omega)]
  · refine congrArg (f.Lang * ·) ?_
    ext w
    constructor
    · rintro ⟨c, v, p, rfl, ⟨i, hi, rfl, hl⟩, hr⟩
      obtain ⟨hlen, hv⟩ := cont_run hr
      have hlen : v.length = i := by omega
      rw [hlead i c hi] at hl
      rcases hl with ⟨rfl, hc⟩ | ⟨rfl, hc⟩ | ⟨rfl, hc⟩ | ⟨rfl, hc⟩
      · obtain rfl := List.length_eq_zero_iff.1 hlen
        exact ⟨_, .one hc⟩
      · obtain ⟨a, rfl⟩ := List.length_eq_one_iff.1 hlen
        exact ⟨_, .two hc.1 hc.2 (hv a (by simp))⟩
      · obtain ⟨a, b, rfl⟩ := List.length_eq_two.1 hlen
        exact ⟨_, .three hc.1 hc.2 (hv a (by simp)) (hv b (by simp))⟩
      · obtain ⟨a, b, d, rfl⟩ := List.length_eq_three.1 hlen
        exact ⟨_, .four hc.1 hc.2 (hv a (by simp)) (hv b (by simp)) (hv d (by simp))⟩
    · rintro ⟨c, hw⟩
      have mk : ∀ (i a : Nat) (v : List Nat), i < 4 → v.length = i → lead i a → (∀ b ∈ v, IsCont b) →
          ∃ c v' p, a :: v = c :: v' ∧ (∃ i < 4, p = f.size + 4 - i - 1 ∧ lead i c) ∧
            Run (fun q c p => ∃ i < 3, q = f.size + i ∧ p = f.size + i + 1 ∧ IsCont c) p v' (f.size + 3) := by
        intro i a v hi hv hl hc
        refine ⟨a, v, f.size + (3 - i), rfl, ⟨i, hi, by omega, hl⟩, ?_⟩
        have := run_cont (n := f.size) (k := 3 - i) (v := v) (by omega) hc
        rwa [show f.size + (3 - i) + v.length = f.size + 3 by omega] at this
      cases hw with
      | one ha => exact mk 0 _ [] (by omega) rfl ((hlead _ _ (by omega)).2 (.inl ⟨rfl, ha⟩)) (by simp)
      | two h1 h2 c1 =>
        exact mk 1 _ [_] (by omega) rfl ((hlead _ _ (by omega)).2 (.inr (.inl ⟨rfl, h1, h2⟩))) (by simpa using c1)
      | three h1 h2 c1 c2 =>
        exact mk 2 _ [_, _] (by omega) rfl ((hlead _ _ (by omega)).2 (.inr (.inr (.inl ⟨rfl, h1, h2⟩)))) (by simpa using ⟨c1, c2⟩)
      | four h1 h2 c1 c2 c3 =>
        exact mk 3 _ [_, _, _] (by omega) rfl ((hlead _ _ (by omega)).2 (.inr (.inr (.inr ⟨rfl, h1, h2⟩)))) (by simpa using ⟨c1, c2, c3⟩)
  · rintro c p ⟨i, hi, rfl, hl⟩
    rw [hlead i c hi] at hl
    omega
  · rintro q c p ⟨i, hi, rfl, rfl, hc⟩
    unfold IsCont at hc
    omega

theorem utf8AppendDot_good {f : Fsm} (h : f.Good) (hr : f.Raw) (ha : f.isAlt = false) : (utf8AppendDot f).Good := by
  obtain ⟨h1, h2, h3, h4, h5, h6, h7, h8⟩ := utf8AppendDot_spec h.wf hr ha
  exact .of_raw h5 h4 (.of_false h6) h7

end Pire.Enc
