import Verif.Proofs.FsmBasic

/-! # Languages of the elementary constructions -/

namespace Pire
namespace Fsm

open Spec

theorem langFrom_congr {f g : Fsm} (hE : g.Edge = f.Edge) (hF : g.finals = f.finals) (q : Nat) :
    g.LangFrom q = f.LangFrom q := by
  ext w
  change (∃ p ∈ g.finals, Run g.Edge q w p) ↔ (∃ p ∈ f.finals, Run f.Edge q w p)
  rw [hE, hF]

theorem lang_congr {f g : Fsm} (hE : g.Edge = f.Edge) (hF : g.finals = f.finals) (hI : g.initial = f.initial) :
    g.Lang = f.Lang := by
  unfold Lang; rw [hI, langFrom_congr hE hF]

theorem mem_lang {f : Fsm} {w : List Nat} : w ∈ f.Lang ↔ ∃ p ∈ f.finals, Run f.Edge f.initial w p := Iff.rfl

theorem mem_langFrom {f : Fsm} {q : Nat} {w : List Nat} : w ∈ f.LangFrom q ↔ ∃ p ∈ f.finals, Run f.Edge q w p :=
  Iff.rfl

theorem init_edge (q c p : Nat) : ¬ Fsm.init.Edge q c p := by
  rw [edge_iff]; simp [dst, Fsm.init]

theorem lang_init : Fsm.init.Lang = single [] := by
  ext w
  rw [mem_lang]
  constructor
  · rintro ⟨p, hp, hr⟩
    exact (hr.stuck (fun c b => init_edge _ c b)).1
  · rintro rfl
    exact ⟨0, by simp [Fsm.init], .refl _⟩

theorem lang_makeFalse : Fsm.makeFalse.Lang = 0 := by
  ext w
  rw [mem_lang]
  simp [Fsm.makeFalse, Fsm.setFinal, Fsm.init]

/-! ### A common shape: everything final is connected to one new state -/

/-- One letter satisfying `A`. -/
def oneLetter (A : Nat → Prop) : Language Nat := {w | ∃ c, A c ∧ w = [c]}


/-- If `g` extends `f` by a fresh final state `n` reached from the old final states by the labels in `A`, then `g`
accepts a word of `f` followed by a letter of `A`. -/
theorem lang_append_shape {f g : Fsm} (hf : f.WF) {A : Nat → Prop} (hA : ∀ c, A c → c ≠ 257)
    (hE : ∀ q c p, g.Edge q c p ↔ f.Edge q c p ∨ (q ∈ f.finals ∧ p = f.size ∧ A c))
    (hi : g.initial = f.initial) (hF : g.finals = {f.size}) :
    g.Lang = f.Lang * oneLetter A := by
  ext w
  rw [Language.mem_mul, mem_lang]
  constructor
  · rintro ⟨p, hp, hr⟩
    rw [hF, Finset.mem_singleton] at hp
    subst hp
    rw [hi] at hr
    have key : ∀ {q w p}, Run g.Edge q w p → q < f.size → p = f.size →
        ∃ r ∈ f.finals, ∃ u c, A c ∧ w = u ++ [c] ∧ Run f.Edge q u r := by
      intro q w p hr
      induction hr with
      | refl => intro h1 h2; omega
      | eps e h ih =>
        intro hq hp
        rcases (hE _ _ _).1 e with e | ⟨_, _, ha⟩
        · obtain ⟨r, hr, u, c, hc, hw, hrun⟩ := ih (hf.edge_lt e).2.2 hp
          exact ⟨r, hr, u, c, hc, hw, .eps e hrun⟩
        · exact absurd rfl (hA _ ha)
      | @step q c q' w p hc e h ih =>
        intro hq hp
        rcases (hE _ _ _).1 e with e | ⟨hfin, hq', ha⟩
        · obtain ⟨r, hr, u, c', hc', hw, hrun⟩ := ih (hf.edge_lt e).2.2 hp
          exact ⟨r, hr, c :: u, c', hc', by simp [hw], .step hc e hrun⟩
        · have hst := h.stuck (by
            intro c b e'
            rcases (hE _ _ _).1 e' with e' | ⟨h1, _, _⟩
            · have := (hf.edge_lt e').1; omega
            · have := hf.fin_lt _ h1; omega)
          exact ⟨q, hfin, [], c, ha, by simp [hst.1], .refl _⟩
    obtain ⟨r, hr', u, c, hc, hw, hrun⟩ := key hr hf.init_lt rfl
    exact ⟨u, ⟨r, hr', hrun⟩, [c], ⟨c, hc, rfl⟩, hw.symm⟩
  · rintro ⟨u, ⟨r, hr, hrun⟩, v, ⟨c, hc, rfl⟩, rfl⟩
    refine ⟨f.size, by simp [hF], ?_⟩
    rw [hi]
    exact (hrun.mono fun a c b e => (hE _ _ _).2 (.inl e)).snoc (hA c hc) ((hE _ _ _).2 (.inr ⟨hr, rfl, hc⟩))

theorem resize_edge {f : Fsm} (h : f.WF) {n : Nat} (hn : f.size ≤ n) : (f.resize n).Edge = f.Edge :=
  edge_congr (h.resize_tr hn) rfl

/-! `Append` -/

theorem appendChar_edge {f : Fsm} (h : f.WF) (c0 q c p : Nat) :
    (f.appendChar c0).Edge q c p ↔ f.Edge q c p ∨ (q ∈ f.finals ∧ p = f.size ∧ f.key c = c0) := by
  have h1 : (f.appendChar c0).Edge = ((f.resize (f.size + 1)).connectFinal f.size c0).Edge := edge_congr rfl rfl
  rw [h1, edge_connectFinal, resize_edge h (by omega)]
  rfl

@[simp] theorem appendChar_size (f : Fsm) (c : Nat) : (f.appendChar c).size = f.size + 1 := by
  simp [appendChar, setFinal, clearFinal]
@[simp] theorem appendChar_initial (f : Fsm) (c : Nat) : (f.appendChar c).initial = f.initial := by
  simp [appendChar, setFinal, clearFinal]
@[simp] theorem appendChar_finals (f : Fsm) (c : Nat) : (f.appendChar c).finals = {f.size} := by
  simp [appendChar, setFinal, clearFinal]
@[simp] theorem appendChar_letters (f : Fsm) (c : Nat) : (f.appendChar c).letters = f.letters := by
  simp [appendChar, setFinal, clearFinal]
@[simp] theorem appendChar_isAlt (f : Fsm) (c : Nat) : (f.appendChar c).isAlt = false := by
  simp [appendChar, setFinal, clearFinal]

theorem WF.appendChar {f : Fsm} (h : f.WF) {c : Nat} (hc : c < 264) : (f.appendChar c).WF := by
  have h1 : ((f.resize (f.size + 1)).connectFinal f.size c).WF :=
    (h.resize (by omega)).connectFinal (by simp) hc
  refine h1.congr (by simp) ?_ ?_ rfl (by simp)
  · simp only [appendChar_initial, appendChar_size]; have := h.init_lt; omega
  · simp

theorem Raw.appendChar {f : Fsm} (h : f.Raw) (c : Nat) : (f.appendChar c).Raw := by
  unfold Raw; rw [appendChar_letters]; exact h

theorem lang_appendChar {f : Fsm} (h : f.WF) (hraw : f.Raw) {c : Nat} (hc : c ≠ 257) :
    (f.appendChar c).Lang = f.Lang * single [c] := by
  rw [lang_append_shape (A := fun d => d = c) h (by rintro _ rfl; exact hc) ?_ (by simp) (by simp)]
  · congr 1
    ext w; simp only [single]
    constructor
    · rintro ⟨d, rfl, rfl⟩; rfl
    · rintro rfl; exact ⟨c, rfl, rfl⟩
  · intro q d p
    rw [appendChar_edge h, key_raw hraw]

theorem appendStr_props {f : Fsm} (h : f.WF) (hraw : f.Raw) {s : List Nat} (hs : IsWord s) :
    (f.appendStr s).WF ∧ (f.appendStr s).Raw ∧ (f.appendStr s).Lang = f.Lang * single s := by
  induction s generalizing f with
  | nil =>
    refine ⟨h, hraw, ?_⟩
    change f.Lang = f.Lang * 1
    rw [mul_one]
  | cons c s ih =>
    have hc := hs c (by simp)
    obtain ⟨h1, h2, h3⟩ := ih (h.appendChar hc.1) (hraw.appendChar c) (fun d hd => hs d (by simp [hd]))
    refine ⟨h1, h2, ?_⟩
    change ((f.appendChar c).appendStr s).Lang = _
    rw [h3, lang_appendChar h hraw hc.2, mul_assoc]
    congr 1
    ext w
    simp only [Language.mem_mul, single]
    constructor
    · rintro ⟨a, rfl, b, rfl, rfl⟩; rfl
    · rintro rfl; exact ⟨[c], rfl, s, rfl, rfl⟩

/-! `AppendDot` -/

theorem foldl_connectFinal_fields (l : List Nat) (f : Fsm) :
    let g := l.foldl (fun g c => g.connectFinal (g.size - 1) c) f
    g.size = f.size ∧ g.initial = f.initial ∧ g.finals = f.finals ∧ g.letters = f.letters := by
  induction l generalizing f with
  | nil => simp
  | cons c l ih =>
    have := ih (f.connectFinal (f.size - 1) c)
    simpa using this

theorem foldl_connectFinal_edge (l : List Nat) (f : Fsm) (q c p : Nat) :
    (l.foldl (fun g c => g.connectFinal (g.size - 1) c) f).Edge q c p ↔
      f.Edge q c p ∨ (q ∈ f.finals ∧ p = f.size - 1 ∧ f.key c ∈ l) := by
  induction l generalizing f with
  | nil => simp
  | cons d l ih =>
    rw [List.foldl_cons, ih, edge_connectFinal, key_congr (connectFinal_letters _ _ _)]
    simp only [connectFinal_finals, connectFinal_size, List.mem_cons]
    tauto

theorem foldl_connectFinal_wf {l : List Nat} {f : Fsm} (h : f.WF) (hl : ∀ c ∈ l, c < 264) :
    (l.foldl (fun g c => g.connectFinal (g.size - 1) c) f).WF := by
  induction l generalizing f with
  | nil => exact h
  | cons d l ih =>
    have := h.init_lt
    exact ih (h.connectFinal (by omega) (hl d (by simp))) (fun c hc => hl c (by simp [hc]))

theorem appendLetters_fields (f : Fsm) (l : List Nat) : (f.appendLetters l).size = f.size + 1 ∧
    (f.appendLetters l).initial = f.initial ∧
    (f.appendLetters l).finals = {f.size} ∧ (f.appendLetters l).letters = f.letters := by
  have h := foldl_connectFinal_fields l (f.resize (f.size + 1))
  simp only [resize_size, resize_initial, resize_finals, resize_letters] at h
  simp only [appendLetters, setFinal, clearFinal, h]
  simp

theorem appendLetters_edge {f : Fsm} (h : f.WF) (l : List Nat) (q c p : Nat) :
    (f.appendLetters l).Edge q c p ↔ f.Edge q c p ∨ (q ∈ f.finals ∧ p = f.size ∧ f.key c ∈ l) := by
  have h1 : (f.appendLetters l).Edge = (l.foldl (fun g c => g.connectFinal (g.size - 1) c)
    (f.resize (f.size + 1))).Edge := edge_congr rfl rfl
  rw [h1, foldl_connectFinal_edge, resize_edge h (by omega)]
  simp only [resize_finals, resize_size, Nat.add_sub_cancel]
  rw [key_congr (resize_letters f _)]

theorem WF.appendLetters {f : Fsm} (h : f.WF) {l : List Nat} (hl : ∀ c ∈ l, c < 264) :
    (f.appendLetters l).WF := by
  have h1 := foldl_connectFinal_wf (h.resize (n := f.size + 1) (by omega)) hl
  obtain ⟨h2, h3, h4, h5⟩ := appendLetters_fields f l
  have h6 := foldl_connectFinal_fields l (f.resize (f.size + 1))
  refine h1.congr (by rw [h2]; exact h6.1.symm) ?_ ?_ rfl (by rw [h5]; exact h6.2.2.2.symm)
  · rw [h2, h3]; have := h.init_lt; omega
  · rw [h2, h4]; simp

theorem WF.appendDot {f : Fsm} (h : f.WF) : f.appendDot.WF :=
  h.appendLetters (by intro c hc; rw [List.mem_range] at hc; omega)

theorem lang_appendDot {f : Fsm} (h : f.WF) (hraw : f.Raw) : f.appendDot.Lang = f.Lang * anyByte := by
  obtain ⟨h2, h3, h4, h5⟩ := appendLetters_fields f (List.range 256)
  rw [lang_append_shape (g := f.appendDot) (A := fun d => d < 256) h (by intro c; omega) ?_ h3 h4]
  · rfl
  · intro q d p
    rw [appendDot, appendLetters_edge h, key_raw hraw, List.mem_range]

/-! ### Iterate -/

@[simp] theorem iterate_size (f : Fsm) : f.iterate.size = f.size + 2 := by
  simp [iterate, setFinal, clearFinal]
@[simp] theorem iterate_initial (f : Fsm) : f.iterate.initial = f.size := by
  simp [iterate, setFinal, clearFinal]
@[simp] theorem iterate_finals (f : Fsm) : f.iterate.finals = {f.size + 1} := by
  simp [iterate, setFinal, clearFinal]
@[simp] theorem iterate_letters (f : Fsm) : f.iterate.letters = f.letters := by
  simp [iterate, setFinal, clearFinal]

theorem iterate_edge {f : Fsm} (h : f.WF) (q c p : Nat) :
    f.iterate.Edge q c p ↔ f.Edge q c p ∨ (c = 257 ∧
      ((q = f.size ∧ p = f.size + 1) ∨ (q = f.size ∧ p = f.initial) ∨
       (q ∈ f.finals ∧ p = f.initial) ∨ (q ∈ f.finals ∧ p = f.size + 1))) := by
  have h1 : f.iterate.Edge = (((((f.resize (f.size + 2)).connect f.size (f.size + 1) 257).connect
    f.size f.initial 257).connectFinal f.initial 257).connectFinal (f.size + 1) 257).Edge := by
    apply edge_congr
    · simp [iterate, setFinal, clearFinal]
    · simp
  rw [h1, edge_connectFinal, edge_connectFinal, edge_connect, edge_connect, resize_edge h (by omega)]
  simp only [key_congr (connectFinal_letters _ _ _), key_congr (connect_letters _ _ _ _),
    key_congr (resize_letters f _), h.key_eq_eps, connectFinal_finals, connect_finals, resize_finals]
  tauto

theorem WF.iterate {f : Fsm} (h : f.WF) : f.iterate.WF := by
  have h1 := h.init_lt
  have h2 : (((((f.resize (f.size + 2)).connect f.size (f.size + 1) 257).connect
    f.size f.initial 257).connectFinal f.initial 257).connectFinal (f.size + 1) 257).WF := by
    refine (((((h.resize (by omega)).connect ?_ ?_ ?_).connect ?_ ?_ ?_).connectFinal ?_ ?_).connectFinal ?_ ?_) <;>
      simp <;> omega
  refine h2.congr (by simp) (by simp) (by simp) ?_ (by simp)
  simp [Fsm.iterate, Fsm.setFinal, Fsm.clearFinal]

theorem lang_iterate {f : Fsm} (h : f.WF) : f.iterate.Lang = KStar.kstar f.Lang := by
  have hi := h.init_lt
  ext w
  rw [mem_lang, iterate_initial, iterate_finals, Language.mem_kstar]
  have hend : ∀ {w p}, Run f.iterate.Edge (f.size + 1) w p → w = [] ∧ p = f.size + 1 := by
    intro w p hr
    apply hr.stuck
    intro c b e
    rcases (iterate_edge h _ _ _).1 e with e | ⟨_, h1 | h1 | h1 | h1⟩
    · have := (h.edge_lt e).1; omega
    · omega
    · omega
    · have := h.fin_lt _ h1.1; omega
    · have := h.fin_lt _ h1.1; omega
  have key : ∀ {q w p}, Run f.iterate.Edge q w p → q < f.size → p = f.size + 1 →
      ∃ u v, w = u ++ v ∧ (∃ r ∈ f.finals, Run f.Edge q u r) ∧
        ∃ L : List (List Nat), v = L.flatten ∧ ∀ y ∈ L, y ∈ f.Lang := by
    intro q w p hr
    induction hr with
    | refl => intro h1 h2; omega
    | eps e h' ih =>
      intro hq hp
      rcases (iterate_edge h _ _ _).1 e with e | ⟨_, h1 | h1 | h1 | h1⟩
      · obtain ⟨u, v, hw, ⟨r, hr, hrun⟩, hL⟩ := ih (h.edge_lt e).2.2 hp
        exact ⟨u, v, hw, ⟨r, hr, .eps e hrun⟩, hL⟩
      · omega
      · omega
      · obtain ⟨hfin, rfl⟩ := h1
        obtain ⟨u, v, hw, hru, L, hL, hall⟩ := ih hi hp
        refine ⟨[], u ++ v, by simp [hw], ⟨_, hfin, .refl _⟩, u :: L, by simp [hL], ?_⟩
        intro y hy
        rcases List.mem_cons.1 hy with rfl | hy
        · exact hru
        · exact hall y hy
      · obtain ⟨hfin, rfl⟩ := h1
        obtain ⟨rfl, -⟩ := hend h'
        exact ⟨[], [], rfl, ⟨_, hfin, .refl _⟩, [], rfl, by simp⟩
    | @step q c q' w p hc e h' ih =>
      intro hq hp
      rcases (iterate_edge h _ _ _).1 e with e | ⟨h1, -⟩
      · obtain ⟨u, v, hw, ⟨r, hr, hrun⟩, hL⟩ := ih (h.edge_lt e).2.2 hp
        exact ⟨c :: u, v, by simp [hw], ⟨r, hr, .step hc e hrun⟩, hL⟩
      · exact absurd h1 hc
  constructor
  · rintro ⟨p, hp, hr⟩
    simp only [Finset.mem_singleton] at hp
    generalize hn : f.size = n at hr
    cases hr with
    | refl => omega
    | eps e h' =>
      subst hn
      rcases (iterate_edge h _ _ _).1 e with e | ⟨_, h1 | h1 | h1 | h1⟩
      · have := (h.edge_lt e).1; omega
      · obtain ⟨-, rfl⟩ := h1
        obtain ⟨rfl, -⟩ := hend h'
        exact ⟨[], rfl, by simp⟩
      · obtain ⟨-, rfl⟩ := h1
        obtain ⟨u, v, hw, hru, L, hL, hall⟩ := key h' hi hp
        refine ⟨u :: L, by simp [hw, hL], ?_⟩
        intro y hy
        rcases List.mem_cons.1 hy with rfl | hy
        · exact hru
        · exact hall y hy
      · have := h.fin_lt _ h1.1; omega
      · have := h.fin_lt _ h1.1; omega
    | step hc e h' =>
      subst hn
      rcases (iterate_edge h _ _ _).1 e with e | ⟨h1, -⟩
      · have := (h.edge_lt e).1; omega
      · exact absurd h1 hc
  · rintro ⟨L, rfl, hall⟩
    refine ⟨f.size + 1, by simp, ?_⟩
    have up : ∀ {q w p}, Run f.Edge q w p → Run f.iterate.Edge q w p :=
      fun hr => hr.mono fun a c b e => (iterate_edge h _ _ _).2 (.inl e)
    cases L with
    | nil => exact Run.oneEps ((iterate_edge h _ _ _).2 (.inr ⟨rfl, .inl ⟨rfl, rfl⟩⟩))
    | cons u L =>
      refine .eps ((iterate_edge h _ _ _).2 (.inr ⟨rfl, .inr (.inl ⟨rfl, rfl⟩)⟩)) ?_
      induction L generalizing u with
      | nil =>
        obtain ⟨r, hr, hrun⟩ := hall u (by simp)
        simp only [List.flatten_cons, List.flatten_nil, List.append_nil]
        exact (up hrun).snocEps ((iterate_edge h _ _ _).2 (.inr ⟨rfl, .inr (.inr (.inr ⟨hr, rfl⟩))⟩))
      | cons v L ih =>
        obtain ⟨r, hr, hrun⟩ := hall u (by simp)
        have := ih v (fun y hy => hall y (by simp [hy]))
        rw [List.flatten_cons]
        refine ((up hrun).snocEps (r := f.initial) ?_).trans this
        exact (iterate_edge h _ _ _).2 (.inr ⟨rfl, .inr (.inr (.inl ⟨hr, rfl⟩))⟩)

/-! ### PrependAnything, AppendAnything -/

@[simp] theorem prependAnything_size (f : Fsm) : f.prependAnything.size = f.size + 1 := by
  simp [prependAnything]
@[simp] theorem prependAnything_initial (f : Fsm) : f.prependAnything.initial = f.size := by
  simp [prependAnything]
@[simp] theorem prependAnything_finals (f : Fsm) : f.prependAnything.finals = f.finals := by
  simp [prependAnything]
@[simp] theorem prependAnything_letters (f : Fsm) : f.prependAnything.letters = f.letters := by
  simp [prependAnything]

theorem prependAnything_edge {f : Fsm} (h : f.WF) (q c p : Nat) :
    f.prependAnything.Edge q c p ↔ f.Edge q c p ∨ (q = f.size ∧ p = f.size ∧ c < 264) ∨
      (q = f.size ∧ p = f.initial ∧ c = 257) := by
  have h1 : f.prependAnything.Edge = (((f.resize (f.size + 1)).connectAll
    ((List.range MaxChar).map fun c => (f.size, f.size, c))).connect f.size f.initial 257).Edge := by
    apply edge_congr
    · simp [prependAnything]
    · simp
  rw [h1, edge_connect, edge_connectAll, resize_edge h (by omega)]
  simp only [key_congr (connectAll_letters _ _), key_congr (resize_letters f _), h.key_eq_eps,
    List.mem_map, List.mem_range, Prod.mk.injEq]
  have : (∃ a < MaxChar, f.size = q ∧ f.size = p ∧ a = f.key c) ↔ (q = f.size ∧ p = f.size ∧ c < 264) := by
    constructor
    · rintro ⟨a, ha, rfl, rfl, rfl⟩; exact ⟨rfl, rfl, h.key_lt_iff.1 ha⟩
    · rintro ⟨rfl, rfl, hc⟩; exact ⟨_, h.key_lt_iff.2 hc, rfl, rfl, rfl⟩
  rw [this]; tauto

theorem WF.prependAnything {f : Fsm} (h : f.WF) : f.prependAnything.WF := by
  have h1 := h.init_lt
  have h2 : (((f.resize (f.size + 1)).connectAll
    ((List.range MaxChar).map fun c => (f.size, f.size, c))).connect f.size f.initial 257).WF := by
    refine ((h.resize (by omega)).connectAll ?_).connect ?_ ?_ ?_
    · intro q p c hm
      simp only [List.mem_map, List.mem_range, Prod.mk.injEq] at hm
      obtain ⟨a, ha, rfl, rfl, rfl⟩ := hm
      simpa using ha
    all_goals simp
    omega
  refine h2.congr (by simp) (by simp) ?_ ?_ (by simp)
  · intro q hq
    simp only [prependAnything_finals, prependAnything_size] at hq ⊢
    have := h.fin_lt q hq; omega
  · simp [Fsm.prependAnything]

theorem lang_prependAnything {f : Fsm} (h : f.WF) : f.prependAnything.Lang = allWords * f.Lang := by
  have hi := h.init_lt
  ext w
  rw [mem_lang, prependAnything_initial, prependAnything_finals, Language.mem_mul]
  constructor
  · rintro ⟨p, hp, hr⟩
    have key : ∀ {q w p}, Run f.prependAnything.Edge q w p → q = f.size → p < f.size →
        ∃ u v, IsWord u ∧ w = u ++ v ∧ Run f.Edge f.initial v p := by
      intro q w p hr
      induction hr with
      | refl => intro h1 h2; omega
      | eps e h' ih =>
        intro hq hp
        rcases (prependAnything_edge h _ _ _).1 e with e | ⟨_, rfl, _⟩ | ⟨_, rfl, _⟩
        · have := (h.edge_lt e).1; omega
        · exact ih rfl hp
        · refine ⟨[], _, by simp [IsWord], rfl, ?_⟩
          refine h'.mono_on (S := (· < f.size)) hi ?_
          intro a c b ha e
          rcases (prependAnything_edge h _ _ _).1 e with e | ⟨h1, _⟩ | ⟨h1, _⟩
          · exact ⟨e, (h.edge_lt e).2.2⟩
          · omega
          · omega
      | @step q c q' w p hc e h' ih =>
        intro hq hp
        rcases (prependAnything_edge h _ _ _).1 e with e | ⟨_, rfl, h3⟩ | ⟨_, rfl, h3⟩
        · have := (h.edge_lt e).1; omega
        · obtain ⟨u, v, hu, rfl, hv⟩ := ih rfl hp
          refine ⟨c :: u, v, ?_, rfl, hv⟩
          intro d hd
          rcases List.mem_cons.1 hd with rfl | hd
          · exact ⟨h3, hc⟩
          · exact hu d hd
        · exact absurd h3 hc
    obtain ⟨u, v, hu, rfl, hv⟩ := key hr rfl (h.fin_lt p hp)
    exact ⟨u, hu, v, ⟨p, hp, hv⟩, rfl⟩
  · rintro ⟨u, hu, v, ⟨p, hp, hv⟩, rfl⟩
    refine ⟨p, hp, ?_⟩
    have h1 : Run f.prependAnything.Edge f.size u f.size := by
      change IsWord u at hu
      induction u with
      | nil => exact .refl _
      | cons c u ih =>
        have hc := hu c (by simp)
        exact .step hc.2 ((prependAnything_edge h _ _ _).2 (.inr (.inl ⟨rfl, rfl, hc.1⟩)))
          (ih (fun d hd => hu d (by simp [hd])))
    have h2 : Run f.prependAnything.Edge f.size [] f.initial :=
      Run.oneEps ((prependAnything_edge h _ _ _).2 (.inr (.inr ⟨rfl, rfl, rfl⟩)))
    have h3 : Run f.prependAnything.Edge f.initial v p :=
      hv.mono fun a c b e => (prependAnything_edge h _ _ _).2 (.inl e)
    have := (h1.trans h2).trans h3
    simpa using this

@[simp] theorem appendAnything_size (f : Fsm) : f.appendAnything.size = f.size + 1 := by
  simp [appendAnything, setFinal, clearFinal]
@[simp] theorem appendAnything_initial (f : Fsm) : f.appendAnything.initial = f.initial := by
  simp [appendAnything, setFinal, clearFinal]
@[simp] theorem appendAnything_finals (f : Fsm) : f.appendAnything.finals = {f.size} := by
  simp [appendAnything, setFinal, clearFinal]
@[simp] theorem appendAnything_letters (f : Fsm) : f.appendAnything.letters = f.letters := by
  simp [appendAnything, setFinal, clearFinal]

theorem appendAnything_edge {f : Fsm} (h : f.WF) (q c p : Nat) :
    f.appendAnything.Edge q c p ↔ f.Edge q c p ∨ (q = f.size ∧ p = f.size ∧ c < 264) ∨
      (q ∈ f.finals ∧ p = f.size ∧ c = 257) := by
  have h1 : f.appendAnything.Edge = (((f.resize (f.size + 1)).connectAll
    ((List.range MaxChar).map fun c => (f.size, f.size, c))).connectFinal f.size 257).Edge := by
    apply edge_congr
    · simp [appendAnything, setFinal, clearFinal]
    · simp
  rw [h1, edge_connectFinal, edge_connectAll, resize_edge h (by omega)]
  simp only [key_congr (connectAll_letters _ _), key_congr (resize_letters f _), h.key_eq_eps,
    List.mem_map, List.mem_range, Prod.mk.injEq, connectAll_finals, resize_finals]
  have : (∃ a < MaxChar, f.size = q ∧ f.size = p ∧ a = f.key c) ↔ (q = f.size ∧ p = f.size ∧ c < 264) := by
    constructor
    · rintro ⟨a, ha, rfl, rfl, rfl⟩; exact ⟨rfl, rfl, h.key_lt_iff.1 ha⟩
    · rintro ⟨rfl, rfl, hc⟩; exact ⟨_, h.key_lt_iff.2 hc, rfl, rfl, rfl⟩
  rw [this]; tauto

theorem WF.appendAnything {f : Fsm} (h : f.WF) : f.appendAnything.WF := by
  have h1 := h.init_lt
  have h2 : (((f.resize (f.size + 1)).connectAll
    ((List.range MaxChar).map fun c => (f.size, f.size, c))).connectFinal f.size 257).WF := by
    refine ((h.resize (by omega)).connectAll ?_).connectFinal ?_ ?_
    · intro q p c hm
      simp only [List.mem_map, List.mem_range, Prod.mk.injEq] at hm
      obtain ⟨a, ha, rfl, rfl, rfl⟩ := hm
      simpa using ha
    all_goals simp
  refine h2.congr (by simp) ?_ (by simp) ?_ (by simp)
  · simp; omega
  · simp [Fsm.appendAnything, Fsm.setFinal, Fsm.clearFinal]

theorem lang_appendAnything {f : Fsm} (h : f.WF) : f.appendAnything.Lang = f.Lang * allWords := by
  have hi := h.init_lt
  ext w
  rw [mem_lang, appendAnything_initial, appendAnything_finals, Language.mem_mul]
  have hloop : ∀ {q w p}, Run f.appendAnything.Edge q w p → q = f.size → IsWord w := by
    intro q w p hr
    induction hr with
    | refl => simp [IsWord]
    | eps e h' ih =>
      intro hq
      rcases (appendAnything_edge h _ _ _).1 e with e | ⟨_, rfl, _⟩ | ⟨h1, rfl, _⟩
      · have := (h.edge_lt e).1; omega
      · exact ih rfl
      · exact ih rfl
    | @step q c q' w p hc e h' ih =>
      intro hq
      rcases (appendAnything_edge h _ _ _).1 e with e | ⟨_, rfl, h3⟩ | ⟨h1, rfl, h3⟩
      · have := (h.edge_lt e).1; omega
      · have := ih rfl
        intro d hd
        rcases List.mem_cons.1 hd with rfl | hd
        · exact ⟨h3, hc⟩
        · exact this d hd
      · exact absurd h3 hc
  constructor
  · rintro ⟨p, hp, hr⟩
    simp only [Finset.mem_singleton] at hp
    subst hp
    have key : ∀ {q w p}, Run f.appendAnything.Edge q w p → q < f.size → p = f.size →
        ∃ u v r, r ∈ f.finals ∧ IsWord v ∧ w = u ++ v ∧ Run f.Edge q u r := by
      intro q w p hr
      induction hr with
      | refl => intro h1 h2; omega
      | eps e h' ih =>
        intro hq hp
        rcases (appendAnything_edge h _ _ _).1 e with e | ⟨h1, rfl, _⟩ | ⟨h1, rfl, _⟩
        · obtain ⟨u, v, r, hr, hv, hw, hrun⟩ := ih (h.edge_lt e).2.2 hp
          exact ⟨u, v, r, hr, hv, hw, .eps e hrun⟩
        · omega
        · exact ⟨[], _, _, h1, hloop h' rfl, rfl, .refl _⟩
      | @step q c q' w p hc e h' ih =>
        intro hq hp
        rcases (appendAnything_edge h _ _ _).1 e with e | ⟨h1, rfl, h3⟩ | ⟨_, rfl, h3⟩
        · obtain ⟨u, v, r, hr, hv, hw, hrun⟩ := ih (h.edge_lt e).2.2 hp
          exact ⟨c :: u, v, r, hr, hv, by simp [hw], .step hc e hrun⟩
        · omega
        · exact absurd h3 hc
    obtain ⟨u, v, r, hr', hv, hw, hrun⟩ := key hr hi rfl
    exact ⟨u, ⟨r, hr', hrun⟩, v, hv, hw.symm⟩
  · rintro ⟨u, ⟨r, hr, hrun⟩, v, hv, rfl⟩
    refine ⟨f.size, by simp, ?_⟩
    have h1 : Run f.appendAnything.Edge f.size v f.size := by
      change IsWord v at hv
      induction v with
      | nil => exact .refl _
      | cons c u ih =>
        have hc := hv c (by simp)
        exact .step hc.2 ((appendAnything_edge h _ _ _).2 (.inr (.inl ⟨rfl, rfl, hc.1⟩)))
          (ih (fun d hd => hv d (by simp [hd])))
    exact (hrun.mono fun a c b e => (appendAnything_edge h _ _ _).2 (.inl e)).trans
      (.eps ((appendAnything_edge h _ _ _).2 (.inr (.inr ⟨hr, rfl, rfl⟩))) h1)

theorem WF.surround {f : Fsm} (h : f.WF) : f.surround.WF := h.prependAnything.appendAnything

theorem lang_surround {f : Fsm} (h : f.WF) : f.surround.Lang = allWords * f.Lang * allWords := by
  unfold surround
  rw [lang_appendAnything h.prependAnything, lang_prependAnything h]

end Fsm
end Pire
