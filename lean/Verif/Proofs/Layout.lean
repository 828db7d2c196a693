import Verif.Model.Multi
import Verif.Proofs.Memory

/-!
# The memory layout of a compiled scanner: cells do not overlap and lie inside of the block
-/

namespace Pire
namespace Multi

variable {P : Policy} {m : Locals} {s : Multi}

/-- The cells a scanner really has. -/
def Ok (P : Policy) (m : Locals) : Cell → Prop
  | .letter c => c < 264
  | .final i => i < m.finalTableSize
  | .finalIndex i => i < m.statesCount
  | .mask row i j => row < m.statesCount ∧ i < P.masks ∧ j < 4
  | .flags row => row < m.statesCount
  | .slot row k => row < m.statesCount ∧ P.headerSize ≤ k ∧ k < rowSize P m

theorem tsz_cases (r : Reloc) : r.tsz = 4 ∨ r.tsz = 8 := by cases r <;> simp [Reloc.tsz]

theorem headerSize_mul (P : Policy) : P.reloc.tsz * P.headerSize = 32 * P.masks + 8 := by
  unfold Policy.headerSize Policy.headerBytes
  rcases tsz_cases P.reloc with h | h <;> rw [h] <;> omega

theorem alignUp_ge (x : Nat) {k : Nat} (hk : 0 < k) : x ≤ Scn.alignUp x k := by
  unfold Scn.alignUp
  have := Nat.div_add_mod (x + (k - 1)) k
  have hm := Nat.mod_lt (x + (k - 1)) hk
  rw [Nat.mul_comm]
  omega

theorem rowSize_ge (P : Policy) (m : Locals) : m.lettersCount + P.headerSize ≤ rowSize P m := by
  unfold rowSize
  apply alignUp_ge
  rcases tsz_cases P.reloc with h | h <;> rw [h] <;> omega

theorem rowBytes_ge (P : Policy) (m : Locals) : 32 * P.masks + 8 ≤ rowBytes P m := by
  have h1 := rowSize_ge P m
  unfold rowBytes
  rw [← headerSize_mul P, Nat.mul_comm]
  exact Nat.mul_le_mul_right _ (by omega)

theorem rowBytes_pos (P : Policy) (m : Locals) : 0 < rowBytes P m := by have := rowBytes_ge P m; omega

/-- Offset of a row cell within its row. -/
def inRow (P : Policy) : Cell → Nat
  | .mask _ i j => 8 * (4 * i + j)
  | .flags _ => 32 * P.masks
  | .slot _ k => P.reloc.tsz * k
  | _ => 0

/-- Row of a row cell. -/
def rowOf : Cell → Option Nat
  | .mask row _ _ => some row
  | .flags row => some row
  | .slot row _ => some row
  | _ => none

theorem off_row {c : Cell} {row : Nat} (h : rowOf c = some row) : off P m c = transOff m + rowBytes P m * row + inRow P c := by
  cases c <;> simp [rowOf] at h <;> subst h <;> rfl

theorem inRow_le {c : Cell} {row : Nat} (h : rowOf c = some row) (hok : Ok P m c) :
    row < m.statesCount ∧ inRow P c + len P c ≤ rowBytes P m := by
  have hb := rowBytes_ge P m
  cases c <;> simp only [rowOf, Option.some.injEq, reduceCtorEq] at h <;> subst h <;> simp only [Ok] at hok
  · refine ⟨hok.1, ?_⟩
    simp only [inRow, len]; omega
  · refine ⟨hok, ?_⟩
    simp only [inRow, len]; omega
  · refine ⟨hok.1, ?_⟩
    simp only [inRow, len, rowBytes]
    calc _ = P.reloc.tsz * (_ + 1) := by ring
      _ ≤ P.reloc.tsz * rowSize P m := Nat.mul_le_mul_left _ hok.2.2
      _ = _ := Nat.mul_comm ..

theorem rows_apart {R row row' : Nat} (h : row < row') : R * row + R ≤ R * row' := by
  calc R * row + R = R * (row + 1) := by ring
    _ ≤ R * row' := Nat.mul_le_mul_left _ h

theorem same_row_disj {c c' : Cell} {row : Nat} (h : rowOf c = some row) (h' : rowOf c' = some row) (hok : Ok P m c)
    (hok' : Ok P m c') (hne : c ≠ c') : inRow P c + len P c ≤ inRow P c' ∨ inRow P c' + len P c' ≤ inRow P c := by
  have hh := headerSize_mul P
  have key : ∀ row' k, P.headerSize ≤ k → 32 * P.masks + 8 ≤ inRow P (.slot row' k) := by
    intro row' k hk
    simp only [inRow]
    rw [← hh]; exact Nat.mul_le_mul_left _ hk
  cases c with
  | letter | final | finalIndex => simp [rowOf] at h
  | mask r i j =>
    simp only [rowOf, Option.some.injEq] at h; subst h
    simp only [Ok] at hok
    cases c' with
    | letter | final | finalIndex => simp [rowOf] at h'
    | mask r i' j' =>
      simp only [rowOf, Option.some.injEq] at h'; subst h'
      simp only [Ok] at hok'
      simp only [inRow, len]
      have : i ≠ i' ∨ j ≠ j' := by
        by_contra hc; push Not at hc; exact hne (by rw [hc.1, hc.2])
      omega
    | flags => simp only [inRow, len]; omega
    | slot r' k => have := key r' k hok'.2.1; simp only [inRow, len] at this ⊢; omega
  | flags r =>
    simp only [rowOf, Option.some.injEq] at h; subst h
    cases c' with
    | letter | final | finalIndex => simp [rowOf] at h'
    | mask r i' j' => simp only [Ok] at hok'; simp only [inRow, len]; omega
    | flags => simp only [rowOf, Option.some.injEq] at h'; subst h'; exact absurd rfl hne
    | slot r' k => have := key r' k hok'.2.1; simp only [inRow, len] at this ⊢; omega
  | slot r k =>
    simp only [rowOf, Option.some.injEq] at h; subst h
    have hk := key r k hok.2.1
    cases c' with
    | letter | final | finalIndex => simp [rowOf] at h'
    | mask r i' j' => simp only [Ok] at hok'; simp only [inRow, len] at hk ⊢; omega
    | flags => simp only [inRow, len] at hk ⊢; omega
    | slot r' k' =>
      simp only [rowOf, Option.some.injEq] at h'; subst h'
      simp only [inRow, len]
      have : k ≠ k' := fun h => hne (by rw [h])
      rcases Nat.lt_or_gt_of_ne this with hlt | hlt
      · left
        calc _ = P.reloc.tsz * (k + 1) := by ring
          _ ≤ _ := Nat.mul_le_mul_left _ hlt
      · right
        calc _ = P.reloc.tsz * (k' + 1) := by ring
          _ ≤ _ := Nat.mul_le_mul_left _ hlt

/-- Distinct cells occupy disjoint bytes. -/
theorem disj {c c' : Cell} (hok : Ok P m c) (hok' : Ok P m c') (hne : c ≠ c') :
    off P m c + len P c ≤ off P m c' ∨ off P m c' + len P c' ≤ off P m c := by
  cases hr : rowOf c with
  | some row =>
    have h1 := off_row (P := P) (m := m) hr
    obtain ⟨h2, h3⟩ := inRow_le hr hok
    cases hr' : rowOf c' with
    | some row' =>
      have h1' := off_row (P := P) (m := m) hr'
      obtain ⟨h2', h3'⟩ := inRow_le hr' hok'
      rcases Nat.lt_trichotomy row row' with hlt | heq | hlt
      · have := rows_apart (R := rowBytes P m) hlt; omega
      · subst heq
        have := same_row_disj hr hr' hok hok' hne
        omega
      · have := rows_apart (R := rowBytes P m) hlt; omega
    | none =>
      right
      rw [h1]
      unfold transOff
      cases c' <;> simp [rowOf] at hr' <;> simp only [Ok] at hok' <;> simp only [off, len, MaxChar] <;> omega
  | none =>
    cases hr' : rowOf c' with
    | some row' =>
      left
      rw [off_row (P := P) (m := m) hr']
      unfold transOff
      cases c <;> simp [rowOf] at hr <;> simp only [Ok] at hok <;> simp only [off, len, MaxChar] <;> omega
    | none =>
      cases c <;> simp [rowOf] at hr <;> cases c' <;> simp [rowOf] at hr' <;> simp only [Ok] at hok hok' <;>
        simp only [off, len, MaxChar] <;> simp only [ne_eq, Cell.letter.injEq, Cell.final.injEq, Cell.finalIndex.injEq, reduceCtorEq,
          not_false_eq_true] at hne <;> omega

/-- Every cell lies inside of the block. -/
theorem inside {c : Cell} (hok : Ok P m c) : off P m c + len P c ≤ bufSize P m := by
  have hbuf : transOff m + rowBytes P m * m.statesCount ≤ bufSize P m := by
    unfold bufSize transOff rowBytes
    refine le_trans ?_ (alignUp_ge _ (by omega))
    apply le_of_eq
    ring
  cases hr : rowOf c with
  | some row =>
    rw [off_row (P := P) (m := m) hr]
    obtain ⟨h2, h3⟩ := inRow_le hr hok
    have := rows_apart (R := rowBytes P m) h2
    omega
  | none =>
    have : off P m c + len P c ≤ transOff m := by
      unfold transOff
      cases c <;> simp [rowOf] at hr <;> simp only [Ok] at hok <;> simp only [off, len, MaxChar] <;> omega
    omega

@[simp] theorem set_m (s : Multi) (c : Cell) (v : Nat) : (s.set P c v).m = s.m := rfl
@[simp] theorem set_base (s : Multi) (c : Cell) (v : Nat) : (s.set P c v).base = s.base := rfl
@[simp] theorem set_empty (s : Multi) (c : Cell) (v : Nat) : (s.set P c v).empty = s.empty := rfl

theorem get_set_same (s : Multi) (c : Cell) (v : Nat) : (s.set P c v).get P c = v % 256 ^ len P c :=
  readLE_write_same ..

theorem get_set_ne (s : Multi) {c c' : Cell} (v : Nat) (hok : Ok P s.m c) (hok' : Ok P s.m c') (hne : c' ≠ c) :
    (s.set P c v).get P c' = s.get P c' := by
  apply readLE_write_disj
  have := disj hok hok' (Ne.symm hne)
  simp only [set_m, set_base]
  omega

/-! ### Sequences of writes -/

/-- Perform writes one after the other. -/
def writes (P : Policy) (s : Multi) (l : List (Cell × Nat)) : Multi := l.foldl (fun s x => s.set P x.1 x.2) s

@[simp] theorem writes_nil (s : Multi) : writes P s [] = s := rfl
@[simp] theorem writes_cons (s : Multi) (x : Cell × Nat) (l : List (Cell × Nat)) :
    writes P s (x :: l) = writes P (s.set P x.1 x.2) l := rfl
theorem writes_append (s : Multi) (l l' : List (Cell × Nat)) : writes P s (l ++ l') = writes P (writes P s l) l' :=
  List.foldl_append

@[simp] theorem writes_m (s : Multi) (l : List (Cell × Nat)) : (writes P s l).m = s.m := by
  induction l generalizing s with
  | nil => rfl
  | cons x l ih => rw [writes_cons, ih]; rfl
@[simp] theorem writes_base (s : Multi) (l : List (Cell × Nat)) : (writes P s l).base = s.base := by
  induction l generalizing s with
  | nil => rfl
  | cons x l ih => rw [writes_cons, ih]; rfl
@[simp] theorem writes_empty (s : Multi) (l : List (Cell × Nat)) : (writes P s l).empty = s.empty := by
  induction l generalizing s with
  | nil => rfl
  | cons x l ih => rw [writes_cons, ih]; rfl

/-- Cells not written keep their value. -/
theorem writes_get_of_not_mem {s : Multi} {l : List (Cell × Nat)} (hl : ∀ x ∈ l, Ok P s.m x.1) {c : Cell} (hc : Ok P s.m c)
    (h : ∀ x ∈ l, x.1 ≠ c) : (writes P s l).get P c = s.get P c := by
  induction l generalizing s with
  | nil => rfl
  | cons x l ih =>
    rw [writes_cons, ih (s := s.set P x.1 x.2) (fun y hy => hl y (List.mem_cons_of_mem _ hy)) hc
      (fun y hy => h y (List.mem_cons_of_mem _ hy))]
    exact get_set_ne s _ (hl x (by simp)) hc (Ne.symm (h x (by simp)))

/-- Cells written get the value written (if it is always the same one). -/
theorem writes_get_of_mem {s : Multi} {l : List (Cell × Nat)} (hl : ∀ x ∈ l, Ok P s.m x.1) {c : Cell} {v : Nat}
    (hmem : (c, v) ∈ l) (huniq : ∀ x ∈ l, x.1 = c → x.2 = v) : (writes P s l).get P c = v % 256 ^ len P c := by
  induction l generalizing s with
  | nil => cases hmem
  | cons x l ih =>
    have hl' : ∀ y ∈ l, Ok P (s.set P x.1 x.2).m y.1 := fun y hy => hl y (List.mem_cons_of_mem _ hy)
    rw [writes_cons]
    by_cases hin : (c, v) ∈ l
    · exact ih hl' hin fun y hy => huniq y (List.mem_cons_of_mem _ hy)
    · have hx : x = (c, v) := by
        rcases List.mem_cons.1 hmem with h | h
        · exact h.symm
        · exact absurd h hin
      subst hx
      rw [writes_get_of_not_mem hl' (c := c) (hl (c, v) (by simp))]
      · exact get_set_same ..
      · intro y hy hyc
        apply hin
        have := huniq y (List.mem_cons_of_mem _ hy) hyc
        rw [← hyc, ← this]
        exact hy

end Multi
end Pire
