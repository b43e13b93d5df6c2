import Verif.Core.Value
/-
Specification of merging, independent of the two-pointer walk.
-/
namespace Verif

/-- `Merged t s r`: `r` is what a reader expects from merging the later response `s` into `t`. -/
inductive Merged : Value → Value → Value → Prop
  /-- a null changes nothing -/
  | null (t) : Merged t .null t
  /-- objects: key by key -/
  | obj {t s r : Fields} : SortedKeys r →
      (∀ k, lookup k s = none → lookup k r = lookup k t) →
      (∀ k, lookup k t = none → lookup k r = lookup k s) →
      (∀ k, (lookup k t).isSome → (lookup k s).isSome → (lookup k r).isSome) →
      (∀ k a b c, lookup k t = some a → lookup k s = some b → lookup k r = some c →
        Merged a b c) →
      Merged (.obj t) (.obj s) (.obj r)
  /-- lists: position by position; the accumulated list keeps its length -/
  | arr {t s r : List Value} : r.length = t.length →
      (∀ i (ht : i < t.length) (hs : i < s.length) (hr : i < r.length),
        Merged t[i] s[i] r[i]) →
      (∀ i (_ : s.length ≤ i), r[i]? = t[i]?) →
      Merged (.arr t) (.arr s) (.arr r)
  /-- anything else: the later value wins -/
  | replace {t s : Value} : s ≠ .null →
      (∀ a b, ¬ (t = .obj a ∧ s = .obj b)) → (∀ a b, ¬ (t = .arr a ∧ s = .arr b)) →
      Merged t s s

/-- Two responses agree: wherever both have a non-null value, it is the same one. -/
inductive Agree : Value → Value → Prop
  | nullL (b) : Agree .null b
  | nullR (a) : Agree a .null
  | f64 (b) : Agree (.f64 b) (.f64 b)
  | i64 (i) : Agree (.i64 i) (.i64 i)
  | u64 (n) : Agree (.u64 n) (.u64 n)
  | bool (b) : Agree (.bool b) (.bool b)
  | str (s) : Agree (.str s) (.str s)
  | raw (s) : Agree (.raw s) (.raw s)
  | arr {a b : List Value} : a.length = b.length →
      (∀ i (ha : i < a.length) (hb : i < b.length), Agree a[i] b[i]) → Agree (.arr a) (.arr b)
  | obj {a b : Fields} : (∀ k x y, lookup k a = some x → lookup k b = some y → Agree x y) →
      Agree (.obj a) (.obj b)

/-- No object of the JSON document has the same key twice. -/
inductive NoDupKeys : Value → Prop
  | null : NoDupKeys .null
  | f64 (b) : NoDupKeys (.f64 b)
  | i64 (i) : NoDupKeys (.i64 i)
  | u64 (n) : NoDupKeys (.u64 n)
  | bool (b) : NoDupKeys (.bool b)
  | str (s) : NoDupKeys (.str s)
  | raw (s) : NoDupKeys (.raw s)
  | arr {vs} : (∀ v ∈ vs, NoDupKeys v) → NoDupKeys (.arr vs)
  | obj {fs : Fields} : (fs.map (·.1)).Nodup → (∀ kv ∈ fs, NoDupKeys kv.2) → NoDupKeys (.obj fs)

end Verif
