import Verif.Proofs.Lexer

/-!
# The features of the library implement the optional parts of the syntax
-/

namespace Pire.Lex

open Pire.Spec Pire.Unidata

/-- A lexer with optional features added in the given order. -/
def install (opts : List Feature) : List Feature := opts.foldl (fun F f => addFeature f F) defaultFeatures

/-- The features that change character sets. -/
def Feature.altering : Feature → Bool
  | .charClasses | .caseInsensitive | .glyphs => true
  | _ => false

theorem alterAll_filter (F : List Feature) (cs : Finset Nat) (neg : Bool) : alterAll F cs neg = alterAll (F.filter Feature.altering) cs neg := by
  induction F with
  | nil => rfl
  | cons f F ih =>
    have e : alterAll (f :: F) cs neg = (do let (cs, neg) ← alterAll F cs neg; f.alter cs neg) := rfl
    by_cases h : f.altering = true
    · rw [List.filter_cons_of_pos h, e, ih]; rfl
    · rw [List.filter_cons_of_neg h, e, ← ih]
      have e2 : ∀ c n, f.alter c n = .ok (c, n) := by
        intro c n; cases f <;> first | rfl | exact absurd rfl h
      cases alterAll F cs neg with
      | ok x => exact e2 _ _
      | throws => rfl
      | bad => rfl

/-- The optional features. -/
def optional : List Feature := [.andNot, .caseInsensitive, .glyphs]

theorem install_cases {opts : List Feature} (hn : opts.Nodup) (ho : ∀ f ∈ opts, f ∈ optional) :
    (install opts).filter Feature.altering =
      (if .glyphs ∈ opts then [.glyphs] else []) ++ [Feature.charClasses] ++ (if .caseInsensitive ∈ opts then [.caseInsensitive] else []) ∧
    Feature.charRange ∈ install opts ∧ Feature.repetition ∈ install opts ∧ Feature.unicode ∈ install opts ∧
    (Feature.andNot ∈ install opts ↔ .andNot ∈ opts) := by
  unfold optional at ho
  rcases opts with _ | ⟨a, _ | ⟨b, _ | ⟨c, _ | ⟨d, l⟩⟩⟩⟩
  · decide
  · have ha := ho a (by simp)
    simp only [List.mem_cons, List.not_mem_nil, or_false] at ha
    rcases ha with rfl | rfl | rfl <;> decide
  · have ha := ho a (by simp)
    have hb := ho b (by simp)
    simp only [List.mem_cons, List.not_mem_nil, or_false] at ha hb
    rcases ha with rfl | rfl | rfl <;> rcases hb with rfl | rfl | rfl <;> first | exact absurd hn (by decide) | decide
  · have ha := ho a (by simp)
    have hb := ho b (by simp)
    have hc := ho c (by simp)
    simp only [List.mem_cons, List.not_mem_nil, or_false] at ha hb hc
    rcases ha with rfl | rfl | rfl <;> rcases hb with rfl | rfl | rfl <;> rcases hc with rfl | rfl | rfl <;>
      first | exact absurd hn (by decide) | decide
  · have ha := ho a (by simp)
    have hb := ho b (by simp)
    have hc := ho c (by simp)
    have hd := ho d (by simp)
    have hn' : [a, b, c, d].Nodup := by
      have : [a, b, c, d].Sublist (a :: b :: c :: d :: l) := by simp
      exact this.nodup hn
    simp only [List.mem_cons, List.not_mem_nil, or_false] at ha hb hc hd
    exfalso
    rcases ha with rfl | rfl | rfl <;> rcases hb with rfl | rfl | rfl <;> rcases hc with rfl | rfl | rfl <;>
      rcases hd with rfl | rfl | rfl <;> exact absurd hn' (by decide)

/-! ### Classes -/

theorem classOf_ctl {n : Nat} (h : n < 128) : classOf (0xF000 + n) = (classTable.lookup (if 65 ≤ n ∧ n ≤ 90 then n + 32 else n)).map rangesSet := by
  unfold classOf
  rw [plain_ctl (by omega), ((latin_spec (by omega)).2 h).2.1]

theorem classTable_spec {n : Nat} {k : Finset Nat} (h : charClass n = some k) : (classTable.lookup n).map rangesSet = some k := by
  have hn := charClass_low h
  rw [← h]
  simp only [List.mem_cons, List.not_mem_nil, or_false] at hn
  have u : ∀ a b : Finset Nat, (∀ x, x ∈ a ↔ x ∈ b) → some a = some b := fun a b h => by rw [Finset.ext h]
  rcases hn with rfl | rfl | rfl | rfl | rfl | rfl | rfl | rfl <;> (apply u; intro x; simp [rangesSet]; try omega)

theorem class_range {n : Nat} {k : Finset Nat} (h : charClass n = some k) : ∀ c ∈ k, c < 0x500 := by
  have hn := charClass_low h
  simp only [List.mem_cons, List.not_mem_nil, or_false] at hn
  intro c hc
  rcases hn with rfl | rfl | rfl | rfl | rfl | rfl | rfl | rfl <;> (cases h; simp at hc; omega)

theorem isUpper_class {n : Nat} {k : Finset Nat} (h : charClass n = some k) : isUpper n = false ∧ isUpper (n - 32) = true ∧
    classOf (0xF000 + n) = some k ∧ classOf (0xF000 + (n - 32)) = some k ∧ 97 ≤ n ∧ n < 123 := by
  have hn := charClass_low h
  simp only [List.mem_cons, List.not_mem_nil, or_false] at hn
  have hb : 97 ≤ n ∧ n < 123 := by omega
  have l1 := (latin_spec (c := n) (by omega)).2 (by omega)
  have l2 := (latin_spec (c := n - 32) (by omega)).2 (by omega)
  refine ⟨?_, l2.1.2 (by omega), ?_, ?_, hb⟩
  · cases hu : isUpper n with
    | false => rfl
    | true => have := l1.1.1 hu; omega
  · rw [classOf_ctl (by omega), if_neg (by omega), classTable_spec h]
  · rw [classOf_ctl (by omega), if_pos (by omega), show n - 32 + 32 = n by omega, classTable_spec h]

/-- Lower-case classes and plain characters. -/
theorem alterClasses_spec {fl : Flavor} (hf : ∀ c, Usable c → ∀ x ∈ fl.fold c, ¬ Reserved x) {raw cs : Finset Nat} (h : RawOk fl raw cs) (neg : Bool) :
    alterClasses (raw.biUnion fun c => if Reserved c then {c} else fl.fold c) neg = .ok (cs, neg) := by
  set raw' := raw.biUnion fun c => if Reserved c then {c} else fl.fold c with hraw
  have key : ∀ i ∈ raw', ¬ Reserved i ∨ ∃ n k, charClass n = some k ∧ i = 0xF000 + n := by
    intro i hi
    obtain ⟨c, hc, hi⟩ := Finset.mem_biUnion.1 hi
    rcases h.elem c hc with hu | ⟨n, k, hk, rfl⟩
    · rw [if_neg hu.1] at hi
      exact .inl (hf c hu i hi)
    · have := (isUpper_class hk).2.2.2.2
      rw [if_pos (by unfold Reserved; omega), Finset.mem_singleton] at hi
      exact .inr ⟨n, k, hk, hi⟩
  have hneg : (raw'.filter fun i => (isControl i && (classOf i).isSome) && isUpper (plain i)) = ∅ := by
    rw [Finset.filter_eq_empty_iff]
    intro i hi
    rcases key i hi with hr | ⟨n, k, hk, rfl⟩
    · rw [(isControl_false i).2 hr]; simp
    · have := isUpper_class hk
      rw [plain_ctl (by omega), this.1]; simp
  unfold alterClasses
  dsimp only
  rw [hneg, if_neg (by simp)]
  have e : (raw'.biUnion fun i => if (isControl i && (classOf i).isSome) = true then (classOf i).getD ∅ else {i}) = cs := by
    rw [← h.eq, hraw, Finset.biUnion_biUnion]
    refine Finset.biUnion_congr rfl fun c hc => ?_
    unfold meaning
    rcases h.elem c hc with hu | ⟨n, k, hk, rfl⟩
    · rw [if_neg hu.1, if_neg hu.1]
      ext x
      rw [Finset.mem_biUnion]
      constructor
      · rintro ⟨y, hy, hx⟩
        rw [(isControl_false y).2 (hf c hu y hy)] at hx
        simp at hx
        rw [hx]; exact hy
      · intro hx
        refine ⟨x, hx, ?_⟩
        rw [(isControl_false x).2 (hf c hu x hx)]
        simp
    · have hc := isUpper_class hk
      have hr : Reserved (0xF000 + n) := by unfold Reserved; omega
      rw [if_pos hr, if_pos hr, Finset.singleton_biUnion, isControl_ctl (by omega), hc.2.2.1, Nat.add_sub_cancel_left, hk]
      rfl
  rw [e]; simp

/-- Capital letters. -/
theorem alterClasses_capital {n : Nat} {k : Finset Nat} (h : charClass n = some k) :
    alterClasses {0xF000 + (n - 32)} false = .ok (k, true) := by
  have hc := isUpper_class h
  unfold alterClasses
  dsimp only
  have e1 : (({0xF000 + (n - 32)} : Finset Nat).filter fun i => (isControl i && (classOf i).isSome) && isUpper (plain i)) = {0xF000 + (n - 32)} := by
    rw [Finset.filter_eq_self]
    intro i hi
    rw [Finset.mem_singleton.1 hi, isControl_ctl (by omega), hc.2.2.2.1, plain_ctl (by omega), hc.2.1]; rfl
  have e2 : (({0xF000 + (n - 32)} : Finset Nat).filter fun i => (isControl i && (classOf i).isSome) && !isUpper (plain i)) = ∅ := by
    rw [Finset.filter_eq_empty_iff]
    intro i hi
    rw [Finset.mem_singleton.1 hi, isControl_ctl (by omega), hc.2.2.2.1, plain_ctl (by omega), hc.2.1]; simp
  have e3 : isControl (0xF000 + (n - 32)) = true := isControl_ctl (by omega)
  rw [e1, e2, if_neg (by simp), Finset.singleton_biUnion, if_pos (by simp only [e3, hc.2.2.2.1]; rfl), hc.2.2.2.1]
  simp

/-! ### Lookalikes -/

theorem glyphs_eq : glyphClasses = lookalikes := by decide

theorem look_one : ∀ c ∈ lookalikes.flatten, ∃ g ∈ lookalikes, c ∈ g ∧ lookalikes.filter (c ∈ ·) = [g] ∧ glyphClasses.find? (·.contains c) = some g := by
  decide

theorem look_low : ∀ c ∈ lookalikes.flatten, c < 0x500 := by decide

theorem alterGlyphs_spec (up low : Nat → Nat) (a b : Bool) (cs : Finset Nat) : alterGlyphs cs = (Flavor.of up low a b true).widen cs := by
  unfold alterGlyphs Flavor.widen Flavor.of
  refine Finset.biUnion_congr rfl fun c _ => ?_
  dsimp only
  rw [if_pos rfl]
  by_cases h : c ∈ lookalikes.flatten
  · obtain ⟨g, hg, hc, h1, h2⟩ := look_one c h
    rw [h1, h2]
    ext x
    simp only [List.mem_toFinset, Finset.mem_insert, List.flatten_cons, List.flatten_nil, List.append_nil]
    exact ⟨.inr, fun h => h.elim (fun h => h ▸ hc) id⟩
  · have h' : ∀ g ∈ lookalikes, c ∉ g := fun g hg hc => h (List.mem_flatten.2 ⟨g, hg, hc⟩)
    have e1 : glyphClasses.find? (·.contains c) = none := by
      rw [List.find?_eq_none, glyphs_eq]
      intro g hg; simpa using h' g hg
    have e2 : lookalikes.filter (c ∈ ·) = [] := by
      rw [List.filter_eq_nil_iff]
      intro g hg; simpa using h' g hg
    rw [e1, e2]; simp

theorem widen_id (up low : Nat → Nat) (a b : Bool) (cs : Finset Nat) : (Flavor.of up low a b false).widen cs = cs := by
  unfold Flavor.widen Flavor.of
  simp

theorem look_mem {up low : Nat → Nat} {a b l : Bool} {c x : Nat} (h : x ∈ (Flavor.of up low a b l).look c) : x = c ∨ x < 0x500 := by
  unfold Flavor.of at h
  dsimp only at h
  split at h
  · rcases Finset.mem_insert.1 h with h | h
    · exact .inl h
    · rw [List.mem_toFinset] at h
      refine .inr (look_low x ?_)
      obtain ⟨g, hg, hx⟩ := List.mem_flatten.1 h
      exact List.mem_flatten.2 ⟨g, (List.mem_filter.1 hg).1, hx⟩
  · exact .inl (Finset.mem_singleton.1 h)

/-! ### Case -/

theorem case_reserved {c : Nat} (h : Usable c) : ¬ Reserved (toUpper c) ∧ ¬ Reserved (toLower c) := by
  by_cases hc : c < 0x10000
  · have := (case_all hc).2.2.2 h.1
    exact ⟨this.2, this.1⟩
  · have := case_astral (c := c) (by omega) (by have := h.2; omega)
    rw [this.1, this.2]
    exact ⟨h.1, h.1⟩

theorem fold_clean (a b l : Bool) {c : Nat} (h : Usable c) : ∀ x ∈ (Flavor.of toUpper toLower a b l).fold c, ¬ Reserved x := by
  intro x hx
  unfold Flavor.of at hx
  dsimp only at hx
  split at hx
  · simp only [Finset.mem_insert, Finset.mem_singleton] at hx
    rcases hx with rfl | rfl
    · exact (case_reserved h).1
    · exact (case_reserved h).2
  · rw [Finset.mem_singleton.1 hx]; exact h.1

/-- Folding leaves the internal codes of classes alone. -/
theorem alterCase_spec (a l : Bool) {raw cs : Finset Nat} (h : RawOk (Flavor.of toUpper toLower a true l) raw cs) :
    alterCase raw = raw.biUnion fun c => if Reserved c then {c} else (Flavor.of toUpper toLower a true l).fold c := by
  unfold alterCase
  ext x
  simp only [Finset.mem_union, Finset.mem_image, Finset.mem_biUnion]
  have key : ∀ c ∈ raw, (x ∈ (if Reserved c then {c} else (Flavor.of toUpper toLower a true l).fold c) ↔ toUpper c = x ∨ toLower c = x) := by
    intro c hc
    rcases h.elem c hc with hu | ⟨n, k, hk, rfl⟩
    · rw [if_neg hu.1]
      simp only [Flavor.of, if_true, Finset.mem_insert, Finset.mem_singleton]
      exact ⟨fun h => h.imp Eq.symm Eq.symm, fun h => h.imp Eq.symm Eq.symm⟩
    · have hk := (isUpper_class hk).2.2.2.2
      have hcc := control_case (c := 0xF000 + n) (by omega) (by omega)
      rw [if_pos (by unfold Reserved; omega), hcc.1, hcc.2.1, Finset.mem_singleton]
      exact ⟨fun h => .inl h.symm, fun h => h.elim Eq.symm Eq.symm⟩
  constructor
  · rintro (⟨c, hc, h⟩ | ⟨c, hc, h⟩)
    · exact ⟨c, hc, (key c hc).2 (.inl h)⟩
    · exact ⟨c, hc, (key c hc).2 (.inr h)⟩
  · rintro ⟨c, hc, h⟩
    rcases (key c hc).1 h with h | h
    · exact .inl ⟨c, hc, h⟩
    · exact .inr ⟨c, hc, h⟩

theorem raw_plain (a l : Bool) {raw cs : Finset Nat} (h : RawOk (Flavor.of toUpper toLower a false l) raw cs) :
    raw = raw.biUnion fun c => if Reserved c then {c} else (Flavor.of toUpper toLower a false l).fold c := by
  ext x
  simp only [Finset.mem_biUnion, Flavor.of]
  constructor
  · intro hx; exact ⟨x, hx, by simp⟩
  · rintro ⟨c, hc, hx⟩
    have : x = c := by simpa using hx
    rw [this]; exact hc

/-- The features `F`, in whatever order they are added, implement the syntax with the corresponding options. -/
theorem install_implements {opts : List Feature} (hn : opts.Nodup) (ho : ∀ f ∈ opts, f ∈ optional) :
    Implements (install opts) (Flavor.of toUpper toLower (decide (.andNot ∈ opts)) (decide (.caseInsensitive ∈ opts)) (decide (.glyphs ∈ opts))) := by
  obtain ⟨hf, h1, h2, h3, h4⟩ := install_cases hn ho
  have hg : ∀ cs neg, alterAll ((if .glyphs ∈ opts then [.glyphs] else []) ++ []) cs neg =
      .ok ((Flavor.of toUpper toLower (decide (.andNot ∈ opts)) (decide (.caseInsensitive ∈ opts)) (decide (.glyphs ∈ opts))).widen cs, neg) := by
    intro cs neg
    by_cases h : Feature.glyphs ∈ opts
    · rw [if_pos h, decide_eq_true h, ← alterGlyphs_spec]; rfl
    · rw [if_neg h, decide_eq_false h, widen_id]; rfl
  have app : ∀ A B cs neg, alterAll (A ++ B) cs neg = (alterAll B cs neg >>= fun x => alterAll A x.1 x.2) := by
    intro A B cs neg
    induction A with
    | nil => change alterAll B cs neg = (alterAll B cs neg >>= fun x => .ok (x.1, x.2)); cases alterAll B cs neg <;> rfl
    | cons f A ih =>
      change (do let (cs, neg) ← alterAll (A ++ B) cs neg; f.alter cs neg) = _
      rw [ih]
      cases alterAll B cs neg <;> rfl
  have split : ∀ cs neg, alterAll (install opts) cs neg =
      (alterAll (if .caseInsensitive ∈ opts then [.caseInsensitive] else []) cs neg >>= fun x => alterClasses x.1 x.2 >>= fun y =>
        .ok ((Flavor.of toUpper toLower (decide (.andNot ∈ opts)) (decide (.caseInsensitive ∈ opts)) (decide (.glyphs ∈ opts))).widen y.1, y.2)) := by
    intro cs neg
    rw [alterAll_filter, hf, List.append_assoc, app, app]
    cases alterAll (if .caseInsensitive ∈ opts then [.caseInsensitive] else []) cs neg with
    | throws => rfl
    | bad => rfl
    | ok x =>
      change (alterClasses x.1 x.2 >>= fun x => alterAll _ x.1 x.2) = (alterClasses x.1 x.2 >>= fun y => .ok (_, y.2))
      congr 1
      funext y
      rw [← hg, List.append_nil]
  refine ⟨h1, h2, h3, by rw [h4]; simp [Flavor.of], ?_, ?_, ?_⟩
  · intro raw cs neg h
    rw [split]
    by_cases hc : Feature.caseInsensitive ∈ opts
    · rw [if_pos hc]
      simp only [decide_eq_true hc] at h ⊢
      change (alterClasses (alterCase raw) neg >>= _) = _
      rw [alterCase_spec _ _ h, alterClasses_spec (fun c hc => fold_clean _ _ _ hc) h]
      rfl
    · rw [if_neg hc]
      simp only [decide_eq_false hc] at h ⊢
      change (alterClasses raw neg >>= _) = _
      rw [raw_plain _ _ h, alterClasses_spec (fun c hc => fold_clean _ _ _ hc) h]
      rfl
  · intro n k h
    rw [split]
    have hk := (isUpper_class h).2.2.2.2
    have hcc := control_case (c := 0xF000 + (n - 32)) (by omega) (by omega)
    have e : alterAll (if .caseInsensitive ∈ opts then [.caseInsensitive] else []) {0xF000 + (n - 32)} false = .ok ({0xF000 + (n - 32)}, false) := by
      split
      · change Res.ok (alterCase _, false) = _
        rw [alterCase, Finset.image_singleton, Finset.image_singleton, hcc.1, hcc.2.1, Finset.union_self]
      · rfl
    rw [e]
    change (alterClasses _ false >>= _) = _
    rw [alterClasses_capital h]
    rfl
  · intro raw cs h c hc
    obtain ⟨y, hy, hc⟩ := Finset.mem_biUnion.1 hc
    have : ¬ Reserved y := by
      rw [← h.eq] at hy
      obtain ⟨z, hz, hy⟩ := Finset.mem_biUnion.1 hy
      unfold meaning at hy
      rcases h.elem z hz with hu | ⟨n, k, hk, rfl⟩
      · rw [if_neg hu.1] at hy
        exact fold_clean _ _ _ hu y hy
      · have hb := (isUpper_class hk).2.2.2.2
        rw [if_pos (by unfold Reserved; omega), Nat.add_sub_cancel_left, hk] at hy
        have := class_range hk y hy
        unfold Reserved; omega
    rcases look_mem hc with rfl | h
    · exact this
    · unfold Reserved; omega

end Pire.Lex
