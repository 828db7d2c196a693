import Verif.Model.FileMap

/-!
# C76: `FileMmap` of the tools
-/

namespace Pire.Props

open Pire.Tools

/-- Whichever system call fails: nothing is closed that is not open; if the constructor throws, the process has what it had before; if not, the object is a mapping of the whole
file, which is not empty, and after the destructor the process has what it had before. This needs that `open` does not return 0, as it does if the standard input is closed. -/
theorem C76_filemap {a : Answers} {os : Os} (h : a.Posix os) (h0 : a.open_ ≠ some 0) :
    (construct a os = some (none, os) ∧ (a.open_ = none ∨ a.size = none ∨ a.map = none)) ∨
    ∃ f os' l, construct a os = some (some f, os') ∧ a.size = some l ∧ 0 < l ∧ (f.mmap, l) ∈ os'.maps ∧ (f.mmap, l) ∉ os.maps ∧ f.range = (f.mmap, f.mmap + l) ∧ f.destroy os' = some os := by
  obtain ⟨o, s, m⟩ := a
  obtain ⟨h1, h2, h3, h4⟩ := h
  dsimp only at h0 h1 h2 h3 h4 ⊢
  cases o with
  | none => left; simp [construct, FileMmap.close]
  | some n =>
    have hn : n ≠ 0 := by rintro rfl; exact h0 rfl
    have hno : n ∉ os.open_ := h1 n rfl
    cases s with
    | none => left; simp [construct, FileMmap.close, hn, hno]
    | some l =>
      cases m with
      | none => left; simp [construct, FileMmap.close, hn, hno]
      | some p =>
        right
        have hp : p ≠ 0 := by rintro rfl; exact h2 rfl
        have hl : l ≠ 0 := by rintro rfl; cases h4 rfl
        have hm : (p, l) ∉ os.maps := h3 p rfl l
        refine ⟨⟨n, p, l⟩, _, l, rfl, rfl, Nat.pos_of_ne_zero hl, by simp, hm, rfl, ?_⟩
        simp [FileMmap.destroy, FileMmap.close, hn, hp, hno, hm]

/-- An empty file cannot be mapped: the constructor throws. -/
theorem C76_empty_file {a : Answers} {os : Os} (h : a.Posix os) (hs : a.size = some 0) : ∀ f os', construct a os ≠ some (some f, os') := by
  obtain ⟨o, s, m⟩ := a
  dsimp only at hs
  subst hs
  have hm : m = none := h.empty rfl
  subst hm
  intro f os'
  cases o with
  | none => simp [construct, FileMmap.close]
  | some n => by_cases hn : n = 0 <;> simp [construct, FileMmap.close, hn]

/-- If `open` returns 0, the file is never closed: neither by the destructor nor if the constructor throws. -/
theorem C76_descriptor_zero_leaks {a : Answers} {os : Os} (h : a.Posix os) (h0 : a.open_ = some 0) :
    (construct a os = some (none, { os with open_ := insert 0 os.open_ }) ∧ (a.size = none ∨ a.map = none)) ∨
    ∃ f os', construct a os = some (some f, os') ∧ f.destroy os' = some { os with open_ := insert 0 os.open_ } := by
  obtain ⟨o, s, m⟩ := a
  obtain ⟨h1, h2, h3, h4⟩ := h
  dsimp only at h0 h1 h2 h3 h4 ⊢
  subst h0
  cases s with
  | none => left; simp [construct, FileMmap.close]
  | some l =>
    cases m with
    | none => left; simp [construct, FileMmap.close]
    | some p =>
      right
      have hp : p ≠ 0 := by rintro rfl; exact h2 rfl
      have hm : (p, l) ∉ os.maps := h3 p rfl l
      refine ⟨⟨0, p, l⟩, _, rfl, ?_⟩
      simp [FileMmap.destroy, FileMmap.close, hp, hm]

/-- `FileMmap` can be copied (the compiler makes a copy constructor), but when both are destroyed the file is unmapped and closed twice. -/
theorem C76_copy_closes_twice {a : Answers} {os : Os} (h : a.Posix os) {f : FileMmap} {os' : Os} (hf : construct a os = some (some f, os')) : (f.destroy os').bind f.destroy = none := by
  obtain ⟨o, s, m⟩ := a
  obtain ⟨h1, h2, h3, h4⟩ := h
  dsimp only at h1 h2 h3 h4
  cases o with
  | none => simp [construct, FileMmap.close] at hf
  | some n =>
    cases s with
    | none => by_cases hn : n = 0 <;> simp [construct, FileMmap.close, hn] at hf
    | some l =>
      cases m with
      | none => by_cases hn : n = 0 <;> simp [construct, FileMmap.close, hn] at hf
      | some p =>
        have hp : p ≠ 0 := by rintro rfl; exact h2 rfl
        have hf : some ⟨n, p, l⟩ = some f ∧ (⟨insert n os.open_, insert (p, l) os.maps⟩ : Os) = os' := by simpa [construct] using hf
        obtain ⟨e, rfl⟩ := hf
        cases e
        by_cases hn : n = 0 <;> simp [FileMmap.destroy, FileMmap.close, hp, hn]

/-- Descriptor 3, 100 bytes at 4096, with the standard streams open. -/
theorem C76_case : (⟨some 3, some 100, some 4096⟩ : Answers).Posix ⟨{0, 1, 2}, ∅⟩ ∧
    construct ⟨some 3, some 100, some 4096⟩ ⟨{0, 1, 2}, ∅⟩ = some (some ⟨3, 4096, 100⟩, ⟨{3, 0, 1, 2}, {(4096, 100)}⟩) :=
  ⟨⟨by intro n h; cases h; decide, by decide, by simp, by decide⟩, by decide⟩

end Pire.Props
