import Verif.Model.RunMulti
import Verif.Proofs.RunMem

/-!
# Running with shortcuts

`RunSpec` collects what a postcondition must satisfy to survive chunking, stopping and skipping; `doRun_spec` then gives
it for the whole run.
-/

namespace Pire
namespace Scn
variable {σ α ρ : Type}

/-- All elements are bytes. -/
def Bytes (l : List Nat) : Prop := ∀ c ∈ l, c < 256

theorem bb (mem : Mem) (b n : Nat) : Bytes (bytesAt mem b n) := fun _ h => bytesAt_lt h

/-- The byte comparison of the platform finds exactly the byte the mask was filled with. -/
structure Isa.Sound (isa : Isa) : Prop where
  pos : 0 < isa.wordSize
  dvd : isa.wordSize % 8 = 0
  any : ∀ c < 256, ∀ mem p, isa.anyByte (fillSizeT c) mem p = true ↔ ∃ i < isa.wordSize, (mem (p + i)).val = c

structure RunSpec (m : Masks σ) (sc : Scn σ α) (pred : Pred σ ρ) (Inv : σ → ρ → Prop)
    (Post : σ → ρ → List Nat → Nat → Res σ ρ → Prop) : Prop where
  naive : ∀ st acc l ptr, Inv st acc → Bytes l → Post st acc l ptr (naive sc pred l ptr st acc)
  inv : ∀ st acc l ptr r, Inv st acc → Bytes l → Post st acc l ptr r → r.stop = false → Inv r.st r.acc
  comp : ∀ st acc l l' ptr r r', Inv st acc → Bytes l → Bytes l' → Post st acc l ptr r → r.stop = false →
    Post r.st r.acc l' (ptr + l.length) r' → Post st acc (l ++ l') ptr r'
  stop : ∀ st acc l l' ptr r, Inv st acc → Bytes l → Bytes l' → Post st acc l ptr r → r.stop = true → Post st acc (l ++ l') ptr r
  skip : ∀ st acc l ptr, Inv st acc → Bytes l → m.noShortcut st = false → m.noExit st = false → (∀ c ∈ l, sc.step st c = st) →
    Post st acc l ptr ⟨st, acc, false⟩
  noExit : ∀ st acc l ptr, Inv st acc → Bytes l → m.noExit st = true → l ≠ [] → (∀ c ∈ l, sc.step st c = st) →
    Post st acc l ptr ⟨st, (pred st (ptr + l.length) acc).1, (pred st (ptr + l.length) acc).2⟩
  sound : ∀ st acc, Inv st acc → MaskSound m sc st

variable {m : Masks σ} {sc : Scn σ α} {pred : Pred σ ρ} {Inv : σ → ρ → Prop}
  {Post : σ → ρ → List Nat → Nat → Res σ ρ → Prop}

theorem RunSpec.andThen (h : RunSpec m sc pred Inv Post) {st acc ptr r} {l l' : List Nat} (hi : Inv st acc) (hl : Bytes l)
    (hl' : Bytes l') (hr : Post st acc l ptr r) {k : Res σ ρ}
    (hk : r.stop = false → Inv r.st r.acc → Post r.st r.acc l' (ptr + l.length) k) :
    Post st acc (l ++ l') ptr (if r.stop then r else k) := by
  cases hs : r.stop with
  | true => rw [if_pos rfl]; exact h.stop _ _ _ _ _ _ hi hl hl' hr hs
  | false =>
    rw [if_neg (by simp)]
    exact h.comp _ _ _ _ _ _ _ hi hl hl' hr hs (hk hs (h.inv _ _ _ _ _ hi hl hr hs))

theorem multiChunk_eq (sc : Scn σ α) (pred : Pred σ ρ) (mem : Mem) (n p : Nat) (st : σ) (acc : ρ) :
    multiChunk sc pred mem n p st acc = naive sc pred (bytesAt mem p (8 * n)) p st acc := by
  induction n generalizing p st acc with
  | zero => rfl
  | succ n ih =>
    rw [multiChunk, show 8 * (n + 1) = 8 + 8 * n by omega, bytesAt_add, naive_append, bytesAt_length]
    rw [runChunk_eq _ _ _ _ _ _ (by omega)]
    simp only [Nat.add_zero]
    unfold Res.andThen
    split
    · rfl
    · rw [ih]

theorem skip_spec {isa : Isa} (hisa : Isa.Sound isa) {mem : Mem} {st : σ} (hm : MaskSound m sc st)
    (h1 : m.noShortcut st = false) (h2 : m.noExit st = false) (n fuel b : Nat) :
    ∃ k ≤ n, m.skip isa mem st fuel b (b + isa.wordSize * n) = b + isa.wordSize * k ∧
      ∀ c ∈ bytesAt mem b (isa.wordSize * k), sc.step st c = st := by
  obtain ⟨x, y, hx, hy, hmask, hstep⟩ := hm.masks h1 h2
  have hcheck : ∀ p, m.check isa mem st p = true → ∀ i < isa.wordSize, (mem (p + i)).val ≠ x ∧ (mem (p + i)).val ≠ y := by
    intro p hp i hi
    unfold Masks.check at hp
    rw [hmask] at hp
    simp only at hp
    by_cases hxy : fillSizeT x = fillSizeT y
    · rw [if_pos hxy] at hp
      have hn : ¬ isa.anyByte (fillSizeT x) mem p = true := by simpa using hp
      have hn' : ¬ isa.anyByte (fillSizeT y) mem p = true := by rw [← hxy]; exact hn
      rw [hisa.any x hx] at hn
      rw [hisa.any y hy] at hn'
      exact ⟨fun e => hn ⟨i, hi, e⟩, fun e => hn' ⟨i, hi, e⟩⟩
    · rw [if_neg hxy, Bool.not_eq_true', Bool.or_eq_false_iff] at hp
      have hn : ¬ isa.anyByte (fillSizeT x) mem p = true := by simp [hp.2]
      have hn' : ¬ isa.anyByte (fillSizeT y) mem p = true := by simp [hp.1]
      rw [hisa.any x hx] at hn
      rw [hisa.any y hy] at hn'
      exact ⟨fun e => hn ⟨i, hi, e⟩, fun e => hn' ⟨i, hi, e⟩⟩
  have hw : ∀ p, m.check isa mem st p = true → ∀ c ∈ bytesAt mem p isa.wordSize, sc.step st c = st := by
    intro p hp c hc
    have : ∀ n b, c ∈ bytesAt mem b n → ∃ i < n, (mem (b + i)).val = c := by
      intro n
      induction n with
      | zero => intro b h; simp [bytesAt] at h
      | succ n ih =>
        intro b h
        rw [bytesAt, List.mem_cons] at h
        rcases h with rfl | h
        · exact ⟨0, by omega, rfl⟩
        · obtain ⟨i, hi, e⟩ := ih _ h
          exact ⟨i + 1, by omega, by rw [← e]; congr 2; omega⟩
    obtain ⟨i, hi, rfl⟩ := this _ _ hc
    exact hstep _ (bytesAt_lt hc) (hcheck p hp i hi).1 (hcheck p hp i hi).2
  induction fuel generalizing b n with
  | zero => exact ⟨0, by omega, by simp [Masks.skip], by simp [bytesAt]⟩
  | succ fuel ih =>
    rw [Masks.skip]
    split
    · rename_i hc
      simp only [ne_eq, Bool.and_eq_true, decide_eq_true_eq] at hc
      obtain ⟨n', rfl⟩ : ∃ n', n = n' + 1 := ⟨n - 1, by
        have : n ≠ 0 := by rintro rfl; simp at hc
        omega⟩
      obtain ⟨k, hk, e1, e2⟩ := ih n' (b + isa.wordSize)
      refine ⟨k + 1, by omega, ?_, ?_⟩
      · rw [show b + isa.wordSize * (n' + 1) = b + isa.wordSize + isa.wordSize * n' by rw [Nat.mul_succ]; omega, e1, Nat.mul_succ]
        omega
      · intro c hcm
        rw [Nat.mul_succ, Nat.add_comm, bytesAt_add, List.mem_append] at hcm
        rcases hcm with hcm | hcm
        · exact hw b hc.2 c hcm
        · exact e2 c hcm
    · exact ⟨0, by omega, by simp, by simp [bytesAt]⟩

theorem mainLoop_spec (h : RunSpec m sc pred Inv Post) {isa : Isa} (hisa : Isa.Sound isa) {mem : Mem} {tail e : Nat}
    (hte : tail ≤ e) (h8 : (e - tail) % 8 = 0) :
    ∀ (fuel n : Nat) (ns : Bool) (head : Nat) (st : σ) (acc : ρ), Inv st acc → head + isa.wordSize * n = tail →
      2 * n + (if ns then 0 else 1) < fuel → (ns = false → m.noShortcut st = false) →
      Post st acc (bytesAt mem head (e - head)) head (mainLoop isa m sc pred mem tail e fuel head ns st acc) := by
  intro fuel
  induction fuel with
  | zero => intro n ns head st acc _ _ hf; omega
  | succ fuel ih =>
    intro n ns head st acc hi hn hf hns
    rw [mainLoop]
    split
    · rename_i hht
      subst hht
      have := runAligned_eq sc pred mem hte h8 st acc
      unfold runAligned at this
      rw [this]
      exact h.naive _ _ _ _ hi (bb _ _ _)
    · rename_i hht
      have hpos := hisa.pos
      have hn0 : n ≠ 0 := by rintro rfl; simp at hn; exact hht hn
      obtain ⟨n', rfl⟩ : ∃ n', n = n' + 1 := ⟨n - 1, by omega⟩
      rw [Nat.mul_succ] at hn
      split
      · rename_i hnst
        rw [if_pos hnst] at hf
        simp only
        have hw8 : 8 * (isa.wordSize / 8) = isa.wordSize := by have := hisa.dvd; omega
        rw [multiChunk_eq, hw8]
        rw [show e - head = isa.wordSize + (e - (head + isa.wordSize)) by omega, bytesAt_add]
        refine h.andThen hi (bb _ _ _) (bb _ _ _) (h.naive _ _ _ _ hi (bb _ _ _)) ?_
        intro hs hi'
        rw [bytesAt_length]
        refine ih n' _ _ _ _ hi' (by omega) ?_ (by simp)
        split <;> omega
      · rename_i hnsf
        rw [if_neg hnsf] at hf
        have hnsf' : ns = false := by simpa using hnsf
        have hnst := hns hnsf'
        split
        · rename_i hne
          simp only
          have := h.noExit st acc (bytesAt mem head (e - head)) head hi (bb _ _ _) hne (by
            intro h0
            have := congrArg List.length h0
            simp at this
            omega) (fun c hc => (h.sound _ _ hi).noExit hne c (bytesAt_lt hc))
          rw [bytesAt_length, show head + (e - head) = e by omega] at this
          exact this
        · rename_i hne
          have hne' : m.noExit st = false := by simpa using hne
          obtain ⟨k, hk, e1, e2⟩ := skip_spec (mem := mem) hisa (h.sound _ _ hi) hnst hne' (n' + 1) (tail - head) head
          rw [Nat.mul_succ, show head + (isa.wordSize * n' + isa.wordSize) = tail by omega] at e1
          rw [e1]
          have hkw : isa.wordSize * k ≤ isa.wordSize * (n' + 1) := Nat.mul_le_mul_left _ hk
          rw [Nat.mul_succ] at hkw
          rw [show e - head = isa.wordSize * k + (e - (head + isa.wordSize * k)) by omega, bytesAt_add]
          have hsk := h.skip st acc (bytesAt mem head (isa.wordSize * k)) head hi (bb _ _ _) hnst hne' e2
          refine h.comp _ _ _ _ _ _ _ hi (bb _ _ _) (bb _ _ _) hsk rfl ?_
          rw [bytesAt_length]
          refine ih (n' + 1 - k) true _ _ _ hi ?_ ?_ (by simp)
          · rw [Nat.add_assoc, ← Nat.mul_add, show k + (n' + 1 - k) = n' + 1 by omega, Nat.mul_succ]; omega
          · simp only [if_true]; omega

theorem headLoop_spec (h : RunSpec m sc pred Inv Post) {mem : Mem} {head e : Nat} :
    ∀ (fuel n k b : Nat) (st : σ) (acc : ρ), Inv st acc → b + 8 * n = head → b + 8 * k = e → min n k ≤ fuel →
      let r := headLoop sc pred mem fuel b head e st acc
      (r.1.stop = true ∧ Post st acc (bytesAt mem b (e - b)) b r.1) ∨
      (r.1.stop = false ∧ r.2 = min head e ∧ Post st acc (bytesAt mem b (min head e - b)) b r.1 ∧ Inv r.1.st r.1.acc) := by
  intro fuel
  have base : ∀ b st acc, Inv st acc → Post st acc (bytesAt mem b 0) b ⟨st, acc, false⟩ := by
    intro b st acc hi
    exact h.naive st acc [] b hi (by simp [Bytes])
  induction fuel with
  | zero =>
    intro n k b st acc hi hn hk hf
    rw [headLoop]
    have hmin : min head e = b := by omega
    refine .inr ⟨rfl, hmin.symm, ?_, hi⟩
    rw [hmin, Nat.sub_self]; exact base _ _ _ hi
  | succ fuel ih =>
    intro n k b st acc hi hn hk hf
    rw [headLoop]
    split
    · rename_i hc
      simp only [ne_eq, Bool.and_eq_true, decide_eq_true_eq, Bool.decide_and] at hc
      obtain ⟨n', rfl⟩ : ∃ n', n = n' + 1 := ⟨n - 1, by omega⟩
      obtain ⟨k', rfl⟩ : ∃ k', k = k' + 1 := ⟨k - 1, by omega⟩
      simp only
      rw [runChunk_eq _ _ _ _ _ _ (by omega)]
      simp only [Nat.add_zero]
      have hp := h.naive st acc (bytesAt mem b 8) b hi (bb _ _ _)
      cases hs : (naive sc pred (bytesAt mem b 8) b st acc).stop with
      | true =>
        rw [if_pos rfl]
        refine .inl ⟨hs, ?_⟩
        rw [show e - b = 8 + (e - (b + 8)) by omega, bytesAt_add]
        exact h.stop _ _ _ _ _ _ hi (bb _ _ _) (bb _ _ _) hp hs
      | false =>
        rw [if_neg (by simp)]
        have hi' := h.inv _ _ _ _ _ hi (bb _ _ _) hp hs
        rcases ih n' k' (b + 8) _ _ hi' (by omega) (by omega) (by omega) with ⟨a1, a2⟩ | ⟨a1, a2, a3, a4⟩
        · refine .inl ⟨a1, ?_⟩
          rw [show e - b = 8 + (e - (b + 8)) by omega, bytesAt_add]
          exact h.comp _ _ _ _ _ _ _ hi (bb _ _ _) (bb _ _ _) hp hs (by rw [bytesAt_length]; exact a2)
        · refine .inr ⟨a1, a2, ?_, a4⟩
          rw [show min head e - b = 8 + (min head e - (b + 8)) by omega, bytesAt_add]
          exact h.comp _ _ _ _ _ _ _ hi (bb _ _ _) (bb _ _ _) hp hs (by rw [bytesAt_length]; exact a3)
    · rename_i hc
      have hc' : b = head ∨ b = e := by
        by_contra hn'
        push_neg at hn'
        simp [hn'] at hc
      have hmin : min head e = b := by omega
      refine .inr ⟨rfl, hmin.symm, ?_, hi⟩
      rw [hmin, Nat.sub_self]; exact base _ _ _ hi

theorem runAlignedMulti_spec (h : RunSpec m sc pred Inv Post) {isa : Isa} (hisa : Isa.Sound isa) {mem : Mem} {b e : Nat}
    (hbe : b ≤ e) (hb8 : b % 8 = 0) (he8 : e % 8 = 0) (st : σ) (acc : ρ) (hi : Inv st acc) :
    Post st acc (bytesAt mem b (e - b)) b (runAlignedMulti isa m sc pred mem b e st acc) := by
  unfold runAlignedMulti
  have hpos := hisa.pos
  obtain ⟨W, hW⟩ : ∃ W, isa.wordSize = 8 * W := ⟨isa.wordSize / 8, by have := hisa.dvd; omega⟩
  have hup : ∃ n, alignUp b isa.wordSize = b + 8 * n := by
    unfold alignUp
    have h1 : (b + (isa.wordSize - 1)) / isa.wordSize * isa.wordSize ≥ b := by
      have := Nat.div_add_mod (b + (isa.wordSize - 1)) isa.wordSize
      have := Nat.mod_lt (b + (isa.wordSize - 1)) hpos
      rw [Nat.mul_comm]
      omega
    have h2 : (b + (isa.wordSize - 1)) / isa.wordSize * isa.wordSize % 8 = 0 := by
      generalize (b + (isa.wordSize - 1)) / isa.wordSize = x
      rw [hW, Nat.mul_left_comm]; exact Nat.mul_mod_right _ _
    exact ⟨((b + (isa.wordSize - 1)) / isa.wordSize * isa.wordSize - b) / 8, by omega⟩
  obtain ⟨n, hn⟩ := hup
  have hsp := headLoop_spec h (mem := mem) (head := alignUp b isa.wordSize) (e := e) (e - b) n ((e - b) / 8) b st acc hi hn.symm (by omega) (by omega)
  simp only at hsp ⊢
  generalize headLoop sc pred mem (e - b) b (alignUp b isa.wordSize) e st acc = rr at hsp ⊢
  obtain ⟨r, b'⟩ := rr
  simp only at hsp ⊢
  rcases hsp with ⟨a1, a2⟩ | ⟨a1, a2, a3, a4⟩
  · rw [if_pos a1]; exact a2
  · rw [if_neg (by simp [a1])]
    split
    · rename_i hb'
      rw [hb'] at a2
      rw [← a2] at a3
      exact a3
    · rename_i hb'
      have hhe : alignUp b isa.wordSize < e := by
        by_contra hcon
        apply hb'
        rw [a2]; omega
      have hb'' : b' = alignUp b isa.wordSize := by rw [a2]; omega
      rw [← a2] at a3
      have hsub : e - b = (b' - b) + (e - b') := by omega
      split
      · rename_i hne
        have := h.noExit r.st r.acc (bytesAt mem b' (e - b')) b' a4 (bb _ _ _) hne (by
          intro h0
          have := congrArg List.length h0
          simp at this
          omega) (fun c hc => (h.sound _ _ a4).noExit hne c (bytesAt_lt hc))
        rw [bytesAt_length, show b' + (e - b') = e by omega] at this
        rw [hsub, bytesAt_add]
        refine h.comp _ _ _ _ _ _ _ hi (bb _ _ _) (bb _ _ _) a3 a1 ?_
        rw [bytesAt_length, show b + (b' - b) = b' by omega]
        exact this
      · rw [hsub, bytesAt_add]
        refine h.comp _ _ _ _ _ _ _ hi (bb _ _ _) (bb _ _ _) a3 a1 ?_
        rw [bytesAt_length, show b + (b' - b) = b' by omega, ← hb'']
        have ht1 : alignDown e isa.wordSize ≤ e := alignDown_le e
        have ht2 : ∃ k, b' + isa.wordSize * k = alignDown e isa.wordSize := by
          rw [hb'']
          unfold alignUp alignDown
          rw [hb''] at hb'
          unfold alignUp at hhe
          generalize (b + (isa.wordSize - 1)) / isa.wordSize = x at hhe
          have hle : x ≤ e / isa.wordSize := by
            rw [Nat.le_div_iff_mul_le hpos]; omega
          refine ⟨e / isa.wordSize - x, ?_⟩
          rw [Nat.mul_comm isa.wordSize, ← Nat.add_mul]
          congr 1; omega
        obtain ⟨k, hk⟩ := ht2
        refine mainLoop_spec h hisa ht1 ?_ _ k _ _ _ _ a4 hk ?_ (by simp)
        · have : alignDown e isa.wordSize % 8 = 0 := by
            unfold alignDown
            rw [hW, Nat.mul_left_comm]; exact Nat.mul_mod_right _ _
          omega
        · have : k ≤ isa.wordSize * k := Nat.le_mul_of_pos_left k hpos
          split <;> omega

/-- The whole run satisfies the postcondition. -/
theorem doRun_spec (h : RunSpec m sc pred Inv Post) {isa : Isa} (hisa : Isa.Sound isa) {mem : Mem} {b e : Nat}
    (hbe : b ≤ e) (st : σ) (acc : ρ) (hi : Inv st acc) :
    ∃ stop, Post st acc (bytesAt mem b (e - b)) b
      ⟨(doRun (runAlignedMulti isa m sc pred mem) sc pred mem b e st acc).1,
       (doRun (runAlignedMulti isa m sc pred mem) sc pred mem b e st acc).2, stop⟩ := by
  unfold doRun
  simp only [alignDown8]
  have mk : ∀ {l ptr st acc} (r : Res σ ρ), Post st acc l ptr r → ∃ stop, Post st acc l ptr ⟨(r.st, r.acc).1, (r.st, r.acc).2, stop⟩ :=
    fun r hr => ⟨r.stop, hr⟩
  split
  · rename_i hht
    rw [safeRunChunk_eq, show b - b % 8 + (8 - (b - b % 8 + 8 - b)) = b by omega]
    exact mk _ (h.naive _ _ _ _ hi (bb _ _ _))
  · rename_i hht
    set x := if b % 8 = 0 then b else b - b % 8 + 8 with hh
    have h1 : b ≤ x := by rw [hh]; split <;> omega
    have h2 : x ≤ e - e % 8 := by rw [hh]; split <;> omega
    have h3 : x % 8 = 0 := by rw [hh]; split <;> omega
    have hsplit : bytesAt mem b (e - b) = bytesAt mem b (x - b) ++ (bytesAt mem x (e - e % 8 - x) ++ bytesAt mem (e - e % 8) (e % 8)) := by
      rw [show e - b = (x - b) + ((e - e % 8 - x) + e % 8) by omega, bytesAt_add, bytesAt_add]
      rw [show b + (x - b) = x by omega, show x + (e - e % 8 - x) = e - e % 8 by omega]
    have hfirst : (if b ≠ b - b % 8 then
        (runChunk sc pred mem (b - b % 8) (8 - (b - b % 8 + 8 - b)) (b - b % 8 + 8 - b) st acc, b - b % 8 + 8)
        else ((⟨st, acc, false⟩ : Res σ ρ), b - b % 8)) = (naive sc pred (bytesAt mem b (x - b)) b st acc, x) := by
      by_cases hb : b % 8 = 0
      · rw [if_neg (by omega), hh, if_pos hb]
        simp [bytesAt, Scn.naive, hb]
      · rw [if_pos (by omega), runChunk_eq _ _ _ _ _ _ (by omega), hh, if_neg hb]
        rw [show b - b % 8 + (8 - (b - b % 8 + 8 - b)) = b by omega]
    rw [hfirst]
    simp only
    rw [hsplit]
    have hp := h.naive st acc (bytesAt mem b (x - b)) b hi (bb _ _ _)
    have hrest : Bytes (bytesAt mem x (e - e % 8 - x) ++ bytesAt mem (e - e % 8) (e % 8)) := by
      intro c hc
      rcases List.mem_append.1 hc with hc | hc <;> exact bytesAt_lt hc
    generalize naive sc pred (bytesAt mem b (x - b)) b st acc = r at hp
    cases hs : r.stop with
    | true => rw [if_pos rfl]; exact mk _ (h.stop _ _ _ _ _ _ hi (bb _ _ _) hrest hp hs)
    | false =>
      rw [if_neg (by simp)]
      have hi2 := h.inv _ _ _ _ _ hi (bb _ _ _) hp hs
      have hp2 := runAlignedMulti_spec h hisa (mem := mem) h2 h3 (by omega) r.st r.acc hi2
      generalize runAlignedMulti isa m sc pred mem x (e - e % 8) r.st r.acc = r2 at hp2
      have key : ∀ k, Post r.st r.acc (bytesAt mem x (e - e % 8 - x) ++ bytesAt mem (e - e % 8) (e % 8)) x k →
          Post st acc (bytesAt mem b (x - b) ++ (bytesAt mem x (e - e % 8 - x) ++ bytesAt mem (e - e % 8) (e % 8))) b k := by
        intro k hk
        refine h.comp _ _ _ _ _ _ _ hi (bb _ _ _) hrest hp hs ?_
        rw [bytesAt_length, show b + (x - b) = x by omega]
        exact hk
      cases hs2 : r2.stop with
      | true => rw [if_pos rfl]; exact mk _ (key _ (h.stop _ _ _ _ _ _ hi2 (bb _ _ _) (bb _ _ _) hp2 hs2))
      | false =>
        rw [if_neg (by simp)]
        have hi3 := h.inv _ _ _ _ _ hi2 (bb _ _ _) hp2 hs2
        rw [show e - (e - e % 8) = e % 8 by omega]
        split
        · rw [safeRunChunk_eq]
          simp only [Nat.add_zero]
          refine mk _ (key _ (h.comp _ _ _ _ _ _ _ hi2 (bb _ _ _) (bb _ _ _) hp2 hs2 ?_))
          rw [bytesAt_length, show x + (e - e % 8 - x) = e - e % 8 by omega]
          exact h.naive _ _ _ _ hi3 (bb _ _ _)
        · rename_i h0
          simp only [ne_eq, Decidable.not_not] at h0
          rw [h0, show bytesAt mem (e - 0) 0 = [] from rfl, List.append_nil]
          refine ⟨r2.stop, ?_⟩
          have := h.comp st acc (bytesAt mem b (x - b)) (bytesAt mem x (e - e % 8 - x)) b r r2 hi (bb _ _ _) (bb _ _ _) hp hs (by
            rw [bytesAt_length, show b + (x - b) = x by omega]
            exact hp2)
          rw [h0] at this
          exact this

end Scn
end Pire
