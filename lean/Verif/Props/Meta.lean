import Verif.Model.Meta
import Verif.Model.PyStr
import Verif.Proof.Store
/-!
# C51: keys identify objects; C66: every object has a key
-/
set_option linter.unusedSimpArgs false
namespace Aiok8s.Meta
open Store (State Op step exec init IndexFunc)

/-- A namespace and a name as Kubernetes has them: no `/`; the name is there, the namespace may be
absent (`None` or empty). -/
private def proper (k : NamespacedName) : Prop :=
  (∀ s, k.ns = some s → '/' ∉ s) ∧ ∃ n, k.name = some n ∧ '/' ∉ n

/-- The same namespace (absent ones are all the same) and the same name. -/
private def same (a b : NamespacedName) : Prop :=
  a.name = b.name ∧ a.ns.getD [] = b.ns.getD []

private theorem store_key_inj {a b : NamespacedName} (ha : proper a) (hb : proper b)
    (h : objectKeyToStoreKey a = objectKeyToStoreKey b) : same a b := by
  obtain ⟨ans, an⟩ := a
  obtain ⟨bns, bn⟩ := b
  obtain ⟨ha1, n, rfl, hn⟩ := ha
  obtain ⟨hb1, m, hm', hm⟩ := hb
  simp only at hm'
  subst hm'
  simp only [objectKeyToStoreKey] at h
  have key : ∀ (c : Char) (cs : List Char) (t u : List Char), '/' ∉ u →
      str (some (c :: cs)) ++ '/' :: t ≠ u := by
    intro c cs t u hu he
    apply hu
    rw [← he]
    simp
  cases ans with
  | none =>
    cases bns with
    | none => simp [truthy] at h; exact ⟨by simp [h], rfl⟩
    | some t =>
      cases t with
      | nil => simp [truthy] at h; exact ⟨by simp [h], rfl⟩
      | cons c cs =>
        simp [truthy] at h
        exact absurd h.symm (key c cs _ _ hn)
  | some s =>
    cases s with
    | nil =>
      cases bns with
      | none => simp [truthy] at h; exact ⟨by simp [h], rfl⟩
      | some t =>
        cases t with
        | nil => simp [truthy] at h; exact ⟨by simp [h], rfl⟩
        | cons c cs =>
          simp [truthy] at h
          exact absurd h.symm (key c cs _ _ hn)
    | cons d ds =>
      have hd := ha1 _ rfl
      cases bns with
      | none =>
        simp [truthy] at h
        exact absurd h (key d ds _ _ hm)
      | some t =>
        cases t with
        | nil =>
          simp [truthy] at h
          exact absurd h (key d ds _ _ hm)
        | cons c cs =>
          have hc := hb1 _ rfl
          simp only [truthy, if_true, Option.some.injEq, str] at h
          have h2 := congrArg (pySplit '/') h
          rw [pySplit_append hd, pySplit_append hc, pySplit_of_not_mem hn,
            pySplit_of_not_mem hm] at h2
          simp only [List.cons.injEq, and_true] at h2
          refine ⟨by rw [h2.2], ?_⟩
          simp only [Option.getD_some]
          exact List.cons.injEq .. ▸ h2.1

theorem key_of_name {o : Obj} {k : NamespacedName} (h : nameOf o = some k) :
    keyFunc o = some (objectKeyToStoreKey k) := by
  unfold nameOf at h
  obtain ⟨a, ha, h⟩ := Option.bind_eq_some_iff.1 h
  obtain ⟨n, hn, h⟩ := Option.bind_eq_some_iff.1 h
  obtain ⟨ns, hns, rfl⟩ := Option.map_eq_some_iff.1 h
  have hk : keyFunc o = (accessor o).bind fun a => a.ns.bind fun ns =>
      if truthy ns then a.name.map fun n => some (str ns ++ '/' :: str n) else a.name := by
    cases o with
    | explicitKey s => simp [accessor] at ha
    | _ => rfl
  rw [hk, ha]
  simp only [Option.bind_some, hns, hn, objectKeyToStoreKey, Option.map_some]
  split <;> rfl

/-- C51: two objects (not `ExplicitKey`s) with namespaces and names without `/` have the same key
only if they have the same namespace and name, and then they have. -/
theorem C51_injective {a b : Obj} {ka kb : NamespacedName} (ha : nameOf a = some ka)
    (hb : nameOf b = some kb) (pa : (∀ s, ka.ns = some s → '/' ∉ s) ∧
      ∃ n, ka.name = some n ∧ '/' ∉ n)
    (pb : (∀ s, kb.ns = some s → '/' ∉ s) ∧ ∃ n, kb.name = some n ∧ '/' ∉ n) :
    keyFunc a = keyFunc b ↔
      ka.name = kb.name ∧ ka.ns.getD [] = kb.ns.getD [] := by
  rw [key_of_name ha, key_of_name hb]
  constructor
  · intro h
    exact store_key_inj pa pb (Option.some.inj h)
  · rintro ⟨h1, h2⟩
    obtain ⟨ns, n⟩ := ka
    obtain ⟨ms, m⟩ := kb
    simp only at h1 h2
    subst h1
    congr 1
    unfold objectKeyToStoreKey
    cases ns with
    | none =>
      cases ms with
      | none => rfl
      | some t => cases t with
        | nil => rfl
        | cons c cs => simp at h2
    | some s =>
      cases ms with
      | none => cases s with
        | nil => rfl
        | cons c cs => simp at h2
      | some t =>
        simp only [Option.getD_some] at h2
        rw [h2]

/-- C51: without that condition keys can clash. -/
theorem C51_slash : ∃ a b : Obj, nameOf a ≠ nameOf b ∧ keyFunc a = keyFunc b ∧
    (keyFunc a).isSome :=
  ⟨.typed (some (some "a".toList, some "b".toList)) 0, .typed (some (none, some "a/b".toList)) 0,
    by decide, rfl, rfl⟩

private theorem mem_set {d : PyDict Val Obj} {k j : Val} {o p : Obj}
    (h : (j, p) ∈ d.set k o) : (j, p) ∈ d ∨ (j = k ∧ p = o) := by
  induction d with
  | nil =>
    simp [PyDict.set] at h
    exact Or.inr h
  | cons q d ih =>
    obtain ⟨k', o'⟩ := q
    rw [PyDict.set] at h
    split at h
    · rename_i hk
      rcases List.mem_cons.1 h with h | h
      · cases h
        exact Or.inr ⟨hk, rfl⟩
      · exact Or.inl (List.mem_cons_of_mem _ h)
    · rcases List.mem_cons.1 h with h | h
      · cases h
        exact Or.inl (List.mem_cons_self ..)
      · exact (ih h).imp (List.mem_cons_of_mem _) id

private theorem mem_del {d : PyDict Val Obj} {k j : Val} {p : Obj} (h : (j, p) ∈ d.del k) :
    (j, p) ∈ d := by
  induction d with
  | nil => simp [PyDict.del] at h
  | cons q d ih =>
    obtain ⟨k', o'⟩ := q
    rw [PyDict.del] at h
    split at h
    · exact List.mem_cons_of_mem _ h
    · rcases List.mem_cons.1 h with h | h
      · cases h
        exact List.mem_cons_self ..
      · exact List.mem_cons_of_mem _ (ih h)

private theorem mem_build {os : List Obj} {d e : PyDict Val Obj}
    (hd : ∀ p ∈ d, keyFunc p.2 = some p.1) (h : Store.buildItems keyFunc os d = some e) :
    ∀ p ∈ e, keyFunc p.2 = some p.1 := by
  induction os generalizing d with
  | nil => cases h; exact hd
  | cons o os ih =>
    rw [Store.buildItems] at h
    split at h
    · simp at h
    · rename_i k hk
      refine ih ?_ h
      rintro ⟨j, p⟩ hp
      rcases mem_set hp with hp | ⟨rfl, rfl⟩
      · exact hd _ hp
      · exact hk

private theorem stored (s : State Val Obj Str Val) (os : List (Op Val Obj Str Val))
    (hs : ∀ p ∈ s.items, keyFunc p.2 = some p.1) :
    ∀ p ∈ (exec keyFunc s os).items, keyFunc p.2 = some p.1 := by
  induction os generalizing s with
  | nil => exact hs
  | cons o os ih =>
    apply ih
    have hput : ∀ (k : Val) (x : Obj), keyFunc x = some k →
        ∀ p ∈ (Store.put s k x).1.items, keyFunc p.2 = some p.1 := by
      rintro k x hx ⟨j, y⟩ hp
      rcases mem_set hp with hp | ⟨rfl, rfl⟩
      · exact hs _ hp
      · exact hx
    have hdel : ∀ k, ∀ p ∈ (Store.delete s k).1.items, keyFunc p.2 = some p.1 := by
      intro k p hp
      unfold Store.delete at hp
      split at hp
      · exact hs p hp
      · split at hp
        · exact hs p hp
        · exact hs p (mem_del hp)
    cases o with
    | add x =>
      simp only [step]
      split
      · exact hs
      · rename_i k hk
        rw [Store.ret_fst]
        exact hput k x hk
    | update x =>
      simp only [step]
      split
      · exact hs
      · rename_i k hk
        rw [Store.ret_fst]
        exact hput k x hk
    | delete x =>
      simp only [step]
      split
      · exact hs
      · rw [Store.ret_fst]
        exact hdel _
    | replace xs =>
      simp only [step]
      split
      · exact hs
      · rename_i items hi
        rw [Store.ret_fst]
        exact mem_build (by simp) hi
    | get x =>
      simp only [step]
      split <;> exact hs
    | addIndexers new =>
      simp only [step]
      rw [Store.ret_fst]
      unfold Store.addIndexers
      split
      · exact hs
      · simp only
        split <;> exact hs
    | _ => exact hs

/-- C51: reading the cache by the `NamespacedName` of a request finds only objects with that
namespace and name: whatever has happened to the cache, if the namespaces and names of the stored
objects are without `/`. -/
theorem C51_lookup (fs : PyDict Str (IndexFunc Obj Val)) (os : List (Op Val Obj Str Val))
    (k : NamespacedName) (o : Obj)
    (hp : (∀ s, k.ns = some s → '/' ∉ s) ∧ ∃ n, k.name = some n ∧ '/' ∉ n)
    (hall : ∀ x ∈ (exec keyFunc (init fs) os).items.values, ∃ kx, nameOf x = some kx ∧
      (∀ s, kx.ns = some s → '/' ∉ s) ∧ ∃ n, kx.name = some n ∧ '/' ∉ n)
    (h : readerGet (exec keyFunc (init fs) os) k = some o) :
    ∃ ko, nameOf o = some ko ∧ ko.name = k.name ∧ ko.ns.getD [] = k.ns.getD [] := by
  have hmem := PyDict.get?_mem h
  have hkey := stored (init fs) os (by simp [init]) _ hmem
  obtain ⟨ko, hko, pko⟩ := hall o (List.mem_map.2 ⟨_, hmem, rfl⟩)
  rw [key_of_name hko] at hkey
  exact ⟨ko, hko, store_key_inj pko hp (Option.some.inj hkey)⟩

/-- C51: an object just added or updated is what a request for it reads. -/
theorem C51_request (fs : PyDict Str (IndexFunc Obj Val)) (os : List (Op Val Obj Str Val))
    (o : Obj) (k : NamespacedName) (h : nameOf o = some k) :
    readerGet (exec keyFunc (init fs) (os ++ [.add o])) k = some o ∧
      readerGet (exec keyFunc (init fs) (os ++ [.update o])) k = some o := by
  have happ : ∀ (s : State Val Obj Str Val) (os : List (Op Val Obj Str Val)) (p),
      exec keyFunc s (os ++ [p]) = (step keyFunc (exec keyFunc s os) p).1 := by
    intro s os p
    induction os generalizing s with
    | nil => rfl
    | cons q os ih => exact ih _
  rw [happ, happ]
  simp only [step, key_of_name h, Store.ret_fst]
  have : readerGet (Store.put (exec keyFunc (init fs) os) (objectKeyToStoreKey k) o).1 k = some o :=
    PyDict.get?_set_self ..
  exact ⟨this, this⟩

/-- C66, negated: a raw object without a namespace, such as a cluster-scoped custom resource, has no
key (`KeyError: 'namespace'`); so it cannot be stored, and one such object in a list makes the whole
`replace` raise `StoreKeyError` and change nothing. -/
theorem C66_refuted (name : Str) (n : Nat) :
    let o := Obj.raw (some [("name".toList, some name)]) n
    keyFunc o = none ∧ ∀ (s : State Val Obj Str Val) (as bs : List Obj),
      step keyFunc s (.add o) = (s, .raised .storeKeyError) ∧
      step keyFunc s (.replace (as ++ o :: bs)) = (s, .raised .storeKeyError) := by
  intro o
  have hk : keyFunc o = none := by
    simp only [keyFunc, accessor, o, Option.map_some, Option.bind_some, Accessor.ns]
    rfl
  refine ⟨hk, fun s as bs => ⟨by simp [step, hk], ?_⟩⟩
  have hb : ∀ d, Store.buildItems keyFunc (as ++ o :: bs) d = none := by
    induction as with
    | nil => intro d; simp [Store.buildItems, hk]
    | cons a as ih =>
      intro d
      rw [List.cons_append, Store.buildItems]
      cases ha : keyFunc a with
      | none => rfl
      | some k => exact ih _
  simp [step, hb]

/-- C66, what holds: typed objects with metadata have a key, with or without a namespace, and so have
raw objects that have both fields; and the namespace index function works for them too. -/
theorem C66_partial (ns name : Val) (n : Nat) (m : PyDict Str Val)
    (h1 : m.get? "namespace".toList = some ns) (h2 : m.get? "name".toList = some name) :
    keyFunc (.typed (some (ns, name)) n) = some (objectKeyToStoreKey ⟨ns, name⟩) ∧
    keyFunc (.raw (some m) n) = some (objectKeyToStoreKey ⟨ns, name⟩) ∧
    namespaceIndexFunc (.typed (some (ns, name)) n) = some [ns] ∧
    namespaceIndexFunc (.raw (some m) n) = some [ns] := by
  refine ⟨key_of_name rfl, key_of_name ?_, rfl, ?_⟩
  · simp [nameOf, accessor, Accessor.ns, Accessor.name] at h1 h2 ⊢
    simp [h1, h2]
  · simp [namespaceIndexFunc, accessor, Accessor.ns] at h1 ⊢
    simp [h1]

/-! ### Cases that meet the hypotheses -/

example : nameOf (.typed (some (some "kube-system".toList, some "coredns".toList)) 3) =
    some ⟨some "kube-system".toList, some "coredns".toList⟩ ∧
    '/' ∉ "kube-system".toList ∧ '/' ∉ "coredns".toList := ⟨rfl, by decide, by decide⟩

/-- A pod and a node stored, and read. -/
example : let pod := Obj.typed (some (some "x".toList, some "a".toList)) 1
    let node := Obj.raw (some [("namespace".toList, none), ("name".toList, some "a".toList)]) 2
    let s := exec keyFunc (init [("namespace".toList, namespaceIndexFunc)]) [.add pod, .add node]
    s.items.values = [pod, node] ∧
    readerGet s ⟨some "x".toList, some "a".toList⟩ = some pod ∧
    readerGet s ⟨some [], some "a".toList⟩ = some node ∧
    readerGet s ⟨some "y".toList, some "a".toList⟩ = none := by
  decide

end Aiok8s.Meta
