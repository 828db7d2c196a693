import Verif.Model.Capture

/-!
# `SlowCapturingScanner`: both ways to store the transitions; copies, `Save`, `Load`, `Mmap`

pire/scanners/slow.h and pire/scanner_io.cpp:71-170 with `need_actions`, pire/extra/capture.h:376-405.
-/

namespace Pire
namespace Capture
open Io

/-! ### Running over any storage -/

/-- What the code of `SlowCapturingScanner` asks of the `SlowScanner` it derives from: `GetSize` slow.h:84, `GetStart` 329-332, `NextStates`
capture.h:390-405 (with `Translate`), `IsFinal` slow.h:334-337. `none` = outside of an array or through a null pointer. -/
structure Access where
  statesCount : Nat
  start : Nat
  nextStates : Nat → Nat → Option (List (Nat × Nat))
  isFinal : Nat → Option Bool

namespace Access
variable (t : Access)

/-- `NextAndGetToGroups`, capture.h:416-450; as `Table.explore`. -/
def explore (t : Access) : Nat → Groups × (Nat → Bool) → Single → Nat → Nat → Option (Groups × (Nat → Bool))
  | 0, _, _, _, _ => none
  | fuel + 1, acc, cur, letter, pos =>
    (t.nextStates cur.num letter).bind fun trs => trs.foldlM (fun acc tr =>
      if tr.1 < t.statesCount then
        if acc.2 tr.1 then some acc
        else
          (explore t fuel (⟨[], [], []⟩, Function.update acc.2 tr.1 true) (advance cur pos tr) Epsilon pos).map fun r =>
            (acc.1.insert { r.1 with nothing := r.1.nothing ++ [advance cur pos tr] } tr.2, r.2)
      else none) acc

/-- `Captured(st, matched)`, capture.h:452-484; as `Table.captured`. -/
def captured (st : Single) : Option (Bool × Bool) :=
  (t.isFinal st.num).bind fun f =>
    if f ∧ st.beg ≠ npos then some (true, true)
    else (t.nextStates st.num EndMark).bind fun trs => loop trs f
where
  /-- The loop over the transitions with the end mark, lines 462-482. -/
  loop : List (Nat × Nat) → Bool → Option (Bool × Bool)
    | [], m => some (false, m)
    | tr :: trs, m =>
      (t.isFinal tr.1).bind fun f =>
        if f then if st.beg ≠ npos ∨ tr.2 &&& 3 ≠ 0 then some (true, true) else loop trs true
        else (t.nextStates tr.1 Epsilon).bind fun es => (inner tr es m).bind fun r => if r.1 then some r else loop trs r.2
  /-- The loop over epsilon transitions, lines 470-481. -/
  inner (tr : Nat × Nat) : List (Nat × Nat) → Bool → Option (Bool × Bool)
    | [], m => some (false, m)
    | e :: es, m =>
      (t.isFinal e.1).bind fun f =>
        if f then if st.beg ≠ npos ∨ tr.2 &&& 3 ≠ 0 then some (true, true) else inner tr es true
        else inner tr es m

/-- `UpdateNList`, capture.h:524-533, with `PushState`, 514-522; as `Table.pushAll`. -/
def pushAll : SState → List Single → Option SState
  | n, [] => some n
  | n, s :: ss =>
    (t.captured s).bind fun r =>
      if r.2 then some { n with states := n.states ++ [s], matched := some s }
      else pushAll { n with states := n.states ++ [s] } ss

/-- `UpdateNList`, capture.h:524-533. -/
def update (n : SState) (g : Groups) : Option SState := t.pushAll n (g.nonGreedy ++ g.nothing ++ g.greedy)

/-- `Initialize`, capture.h:535-543. -/
def initState : Option SState :=
  (t.explore (t.statesCount + 1) (⟨[], [], []⟩, fun _ => false) (Single.mk0 t.start) BeginMark 0).bind fun r =>
    (t.explore (t.statesCount + 1) r (Single.mk0 0) BeginMark 0).bind fun r =>
      t.update { states := [], pos := 0, matched := none } r.1

/-- The loop of `NextTranslated`, capture.h:553-559. -/
def nextLoop (letter : Nat) : List Single → SState × (Nat → Bool) → Option (SState × (Nat → Bool))
  | [], acc => some acc
  | cur :: cs, acc =>
    (t.explore (t.statesCount + 1) (⟨[], [], []⟩, acc.2) cur letter acc.1.pos).bind fun r =>
      (t.update acc.1 r.1).bind fun n => nextLoop letter cs (n, r.2)

/-- `Next`, capture.h:566-569, `NextTranslated`, 545-562. -/
def next (c : SState) (letter : Nat) : Option SState :=
  (t.nextLoop letter c.states ({ states := [], pos := (c.pos + 1) % 2 ^ 64, matched := c.matched }, fun _ => false)).map Prod.fst

/-- `Run` of a text without marks: one letter after another. -/
def run (w : List Nat) : Option SState := t.initState.bind fun s => w.foldlM t.next s

/-- `GetCapture`, capture.h:493-512; as `Table.getCapture`. -/
def getCapture (s : SState) : Option (Bool × Option Single) := loop s.states
where
  /-- The loop, lines 495-503. -/
  loop : List Single → Option (Bool × Option Single)
    | [] => some (match s.matched with | some m => (true, some m) | none => (false, none))
    | x :: xs => (t.captured x).bind fun r => if r.2 then some (r.1, some x) else loop xs

end Access

/-! ### The scanner -/

/-- `SlowCapturingScanner`, all fields of slow.h:339-363: `base` has those of `SlowScanner` without actions (`m_vec`, `m_vecptr`, `m_jumps`, `m_jumpPos`,
`m_finals`, `m_letters`), then `need_actions`, `m_actionsvec`, and the array that `m_actions` points to (`none` = null pointer). -/
structure SlowCap where
  base : Slow
  needActions : Bool
  actionsVec : List (List Nat)
  actions : Option (List Nat)

namespace SlowCap

/-- `SlowCapturingScanner(fsm, distance)`, capture.h:577-580: `need_actions` is set and `m_vec`, `m_actionsvec` are filled together (slow.h:387-397),
as `slowCompile` does; `m_vecptr` points to `m_vec`, the other pointers are null. -/
def compile (f : Fsm) (distance : Nat := 0) : SlowCap :=
  let t := slowCompile f distance
  let vec := t.vec.map (·.map Prod.fst)
  { base := { statesCount := t.statesCount, lettersCount := t.lettersCount, start := t.start, finals := t.finals, letters := t.letters, vec := vec,
              jumps := .vecs vec, empty := false }
    needActions := true
    actionsVec := t.vec.map (·.map Prod.snd)
    actions := none }

/-- `SlowCapturingScanner()`, capture.h:572-574, slow.h:76-79: an alias of `Null()` (slow.h:372-385), but with `need_actions`. -/
def default : SlowCap := { base := Slow.null.aliased, needActions := true, actionsVec := [], actions := none }

/-- `NextStates`, capture.h:390-405, after `Translate`: `IsMmaped` slow.h:299-302 looks at `m_vecptr`, the vectors are the scanner's own ones
(`GetJumpsVec` 319-322, `GetActionsVec` 314-317). -/
def nextStates (s : SlowCap) (q c : Nat) : Option (List (Nat × Nat)) :=
  (s.base.letters[c]?).bind fun l =>
    let num := q * s.base.lettersCount + l
    match s.base.jumps with
    | .vecs _ => (s.base.vec[num]?).bind fun js => (s.actionsVec[num]?).bind fun as =>
        (List.range js.length).mapM fun i => (js[i]?).bind fun j => (as[i]?).map fun a => (j, a)
    | .flat pos jumps => (pos[num]?).bind fun b => (pos[num + 1]?).bind fun e =>
        (List.range' b (e - b)).mapM fun i => (jumps[i]?).bind fun j => (s.actions.bind (·[i]?)).map fun a => (j, a)
    | .null => none

/-- The scanner as the code of capture.h sees it. -/
def access (s : SlowCap) : Access :=
  { statesCount := s.base.statesCount, start := s.base.start, nextStates := s.nextStates, isFinal := fun q => s.base.finals[q]? }

/-- `Initialize` and `Run`. -/
def run (s : SlowCap) (w : List Nat) : Option SState := s.access.run w

/-- `GetCapture`, capture.h:493-512. -/
def getCapture (s : SlowCap) (st : SState) : Option (Bool × Option Single) := s.access.getCapture st

/-- The copy constructor, slow.h:225-250. Assignment (slow.h:285) copies and swaps, so the target becomes this too (`Swap`, 203-223, exchanges all fields and
corrects `m_vecptr` if it points to the vector of the other scanner). -/
def copyCtor (s : SlowCap) : SlowCap := { s with base := s.base.copyCtor, actions := if s.base.vec = [] then s.actions else none }

/-- `Save`, pire/scanner_io.cpp:71-110. -/
def save (s : SlowCap) : Bytes :=
  s.base.save ++ if s.base.empty ∨ s.needActions = false then [] else s.actionsVec.flatten.flatMap (le 4) ++ alignSave (4 * s.actionsVec.flatten.length)

/-- `Load`, pire/scanner_io.cpp:112-170, into the scanner `self`. An empty scanner is an alias of `Null()`, whose `need_actions` is false (slow.h:377, 427-431).
The sizes of the vectors of actions are those of the vectors of jumps. -/
def load (self : SlowCap) (b : Bytes) : Option (SlowCap × Bytes) :=
  (Slow.load Slow.null b).bind fun r =>
    if r.1.empty then some ({ base := r.1, needActions := false, actionsVec := [], actions := none }, r.2)
    else if self.needActions then
      (Slow.takeVecs (r.1.vec.map List.length) r.2).bind fun vs => (alignLoad (4 * vs.1.flatten.length) vs.2).bind fun b =>
        some ({ base := r.1, needActions := true, actionsVec := vs.1, actions := none }, b)
    else some ({ base := r.1, needActions := false, actionsVec := [], actions := none }, r.2)

/-- What `Mmap` can end with, as `Slow.MapResult`. -/
inductive MapResult
  | throws
  | overread
  | ok (s : SlowCap) (p : Nat)

/-- `Mmap`, slow.h:173-201, of the scanner `self`. The local scanner is made by `SlowScanner s`, so its `need_actions` is false and `m_actions` is null (76-79);
`Swap(s)` at the end gives both to `self`. -/
def mmap (self : SlowCap) (mem : Mem) (ptr size : Nat) : MapResult :=
  match Slow.mapIn mem ptr size with
  | .throws => .throws
  | .overread => .overread
  | .empty p _ => .ok self p
  | .ok s p left =>
    if self.needActions then
      let total := match s.jumps with
        | .flat pos _ => pos.getD (s.statesCount * s.lettersCount % 2 ^ 64) 0
        | _ => 0
      match Slow.mapPtr 4 total p left with
      | none => .throws
      | some (p', _) => .ok { base := s, needActions := false, actionsVec := [], actions := some (Slow.memNums mem 4 p total) } p'
    else .ok { base := s, needActions := false, actionsVec := [], actions := none } p

end SlowCap
end Capture
end Pire
