import Verif.Spec.Syntax

/-!
# Patterns with a capture group (C58)

The syntax with the capture feature: a `?` after `*`, `+` or `?` makes the repetition lazy.  Groups are numbered from 1 in the order of their
opening parentheses.  Nothing here mentions the model of the code.
-/

namespace Pire.Spec

/-- A pattern, its tokens, and for every repetition in it whether it is lazy. -/
inductive CPattern (fl : Flavor) : List Nat → List Tok → List Bool → Prop
  | nil : CPattern fl [] [] []
  | other {t tok s ts lz} : Written fl t tok → (∀ lo hi, tok ≠ .count lo hi) → CPattern fl s ts lz → CPattern fl (t ++ s) (tok :: ts) lz
  | braces {t lo hi s ts lz} : Written fl (123 :: t) (.count lo hi) → CPattern fl s ts lz →
      CPattern fl (123 :: t ++ s) (.count lo hi :: ts) (false :: lz)
  | greedy {c lo hi s ts lz} : Written fl [c] (.count lo hi) → s.head? ≠ some 63 → CPattern fl s ts lz →
      CPattern fl (c :: s) (.count lo hi :: ts) (false :: lz)
  | lazy {c lo hi s ts lz} : Written fl [c] (.count lo hi) → CPattern fl s ts lz → CPattern fl (c :: 63 :: s) (.count lo hi :: ts) (true :: lz)

/-! The number of groups in a tree. -/
mutual
def Alt.groups : Alt → Nat
  | .one c => c.groups
  | .or a c => a.groups + c.groups
def Conj.groups : Conj → Nat
  | .one n => n.groups
  | .and c n => c.groups + n.groups
def Neg.groups : Neg → Nat
  | .one c => c.groups
  | .not c => c.groups
def Cat.groups : Cat → Nat
  | .nil => 0
  | .snoc c i => c.groups + i.groups
def Iter.groups : Iter → Nat
  | .one t => t.groups
  | .rep t _ _ => t.groups
def Term.groups : Term → Nat
  | .letters _ _ => 0
  | .dot => 0
  | .bol => 0
  | .eol => 0
  | .group a => a.groups + 1
end

/-! The number of repetitions in a tree. -/
mutual
def Alt.counts : Alt → Nat
  | .one c => c.counts
  | .or a c => a.counts + c.counts
def Conj.counts : Conj → Nat
  | .one n => n.counts
  | .and c n => c.counts + n.counts
def Neg.counts : Neg → Nat
  | .one c => c.counts
  | .not c => c.counts
def Cat.counts : Cat → Nat
  | .nil => 0
  | .snoc c i => c.counts + i.counts
def Iter.counts : Iter → Nat
  | .one t => t.counts
  | .rep t _ _ => t.counts + 1
def Term.counts : Term → Nat
  | .letters _ _ => 0
  | .dot => 0
  | .bol => 0
  | .eol => 0
  | .group a => a.counts
end

/-! What is between the parentheses of the `k`-th group. -/
mutual
def Alt.nth : Alt → Nat → Option Alt
  | .one c, k => c.nth k
  | .or a c, k => if k ≤ a.groups then a.nth k else c.nth (k - a.groups)
def Conj.nth : Conj → Nat → Option Alt
  | .one n, k => n.nth k
  | .and c n, k => if k ≤ c.groups then c.nth k else n.nth (k - c.groups)
def Neg.nth : Neg → Nat → Option Alt
  | .one c, k => c.nth k
  | .not c, k => c.nth k
def Cat.nth : Cat → Nat → Option Alt
  | .nil, _ => none
  | .snoc c i, k => if k ≤ c.groups then c.nth k else i.nth (k - c.groups)
def Iter.nth : Iter → Nat → Option Alt
  | .one t, k => t.nth k
  | .rep t _ _, k => t.nth k
def Term.nth : Term → Nat → Option Alt
  | .letters _ _, _ => none
  | .dot, _ => none
  | .bol, _ => none
  | .eol, _ => none
  | .group a, k => if k = 1 then some a else a.nth (k - 1)
end

/-! The `k`-th group takes part in every match: it is not in an alternative, and not in something that may be repeated zero times. -/
mutual
def Alt.must : Alt → Nat → Bool
  | .one c, k => c.must k
  | .or _ _, _ => false
def Conj.must : Conj → Nat → Bool
  | .one n, k => n.must k
  | .and _ _, _ => false
def Neg.must : Neg → Nat → Bool
  | .one c, k => c.must k
  | .not _, _ => false
def Cat.must : Cat → Nat → Bool
  | .nil, _ => false
  | .snoc c i, k => if k ≤ c.groups then c.must k else i.must (k - c.groups)
def Iter.must : Iter → Nat → Bool
  | .one t, k => t.must k
  | .rep t lo _, k => decide (lo ≠ 0) && t.must k
def Term.must : Term → Nat → Bool
  | .letters _ _, _ => false
  | .dot, _ => false
  | .bol, _ => false
  | .eol, _ => false
  | .group a, k => if k = 1 then true else a.must (k - 1)
end

/-! Trees without `&` and `~`. -/
mutual
def Alt.simple : Alt → Bool
  | .one c => c.simple
  | .or a c => a.simple && c.simple
def Conj.simple : Conj → Bool
  | .one n => n.simple
  | .and _ _ => false
def Neg.simple : Neg → Bool
  | .one c => c.simple
  | .not _ => false
def Cat.simple : Cat → Bool
  | .nil => true
  | .snoc c i => c.simple && i.simple
def Iter.simple : Iter → Bool
  | .one t => t.simple
  | .rep t _ _ => t.simple
def Term.simple : Term → Bool
  | .letters _ _ => true
  | .dot => true
  | .bol => true
  | .eol => true
  | .group a => a.simple
end

/-! Trees without `^` and `$`. -/
mutual
def Alt.markless : Alt → Bool
  | .one c => c.markless
  | .or a c => a.markless && c.markless
def Conj.markless : Conj → Bool
  | .one n => n.markless
  | .and c n => c.markless && n.markless
def Neg.markless : Neg → Bool
  | .one c => c.markless
  | .not c => c.markless
def Cat.markless : Cat → Bool
  | .nil => true
  | .snoc c i => c.markless && i.markless
def Iter.markless : Iter → Bool
  | .one t => t.markless
  | .rep t _ _ => t.markless
def Term.markless : Term → Bool
  | .letters _ _ => true
  | .dot => true
  | .bol => false
  | .eol => false
  | .group a => a.markless
end

/-! Trees without `&` and `~` that match the empty text. -/
mutual
def Alt.nullable : Alt → Bool
  | .one c => c.nullable
  | .or a c => a.nullable || c.nullable
def Conj.nullable : Conj → Bool
  | .one n => n.nullable
  | .and _ _ => true
def Neg.nullable : Neg → Bool
  | .one c => c.nullable
  | .not _ => true
def Cat.nullable : Cat → Bool
  | .nil => true
  | .snoc c i => c.nullable && i.nullable
def Iter.nullable : Iter → Bool
  | .one t => t.nullable
  | .rep t lo _ => decide (lo = 0) || t.nullable
def Term.nullable : Term → Bool
  | .letters _ _ => false
  | .dot => false
  | .bol => false
  | .eol => false
  | .group a => a.nullable
end

/-! A greedy repetition in the tree may be passed before a letter is read: the repetition matches the empty text, and so does everything before it.
The list says for every repetition in the tree, from left to right, whether it is lazy. -/
mutual
def Alt.skips : Alt → List Bool → Bool
  | .one c, l => c.skips l
  | .or a c, l => a.skips l || c.skips (l.drop a.counts)
def Conj.skips : Conj → List Bool → Bool
  | .one n, l => n.skips l
  | .and _ _, _ => true
def Neg.skips : Neg → List Bool → Bool
  | .one c, l => c.skips l
  | .not _, _ => true
def Cat.skips : Cat → List Bool → Bool
  | .nil, _ => false
  | .snoc c i, l => c.skips l || c.nullable && i.skips (l.drop c.counts)
def Iter.skips : Iter → List Bool → Bool
  | .one t, l => t.skips l
  | .rep t lo _, l => t.skips l || (decide (lo = 0) || t.nullable) && !(l.getD t.counts false)
def Term.skips : Term → List Bool → Bool
  | .letters _ _, _ => false
  | .dot, _ => false
  | .bol, _ => false
  | .eol, _ => false
  | .group a, l => a.skips l
end

end Pire.Spec
