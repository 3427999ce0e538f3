import Verif.Lemmas.Heap
/-!
# Finite maps and the key table
-/

namespace Tomllib

namespace SMap
variable {V : Type}

theorem get?_insert (m : SMap V) (k k' : Str) (v : V) : (m.insert k v).get? k' = if k = k' then some v else m.get? k' := by
  induction m with
  | nil => simp [insert, get?]
  | cons p m ih =>
    obtain ⟨q, w⟩ := p
    simp only [insert]
    by_cases h : q = k
    · subst h
      simp only [if_true, get?]
      split <;> rfl
    · simp only [h, if_false, get?]
      by_cases h' : q = k'
      · subst h'
        simp [Ne.symm h]
      · simp [h', ih]

theorem get?_insert_self (m : SMap V) (k : Str) (v : V) : (m.insert k v).get? k = some v := by simp [get?_insert]

theorem get?_erase (m : SMap V) (k k' : Str) : (m.erase k).get? k' = if k = k' then none else m.get? k' := by
  induction m with
  | nil => simp [erase, get?]
  | cons p m ih =>
    obtain ⟨q, w⟩ := p
    simp only [erase]
    by_cases h : q = k
    · subst h
      simp only [if_true, get?, ih]
      split <;> rfl
    · simp only [h, if_false, get?, ih]
      by_cases h' : q = k'
      · subst h'
        simp [Ne.symm h]
      · simp [h']

theorem get?_mem {m : SMap V} {k : Str} {v : V} (h : m.get? k = some v) : (k, v) ∈ m := by
  induction m with
  | nil => simp [get?] at h
  | cons p m ih =>
    obtain ⟨q, w⟩ := p
    simp only [get?] at h
    split at h
    next e => subst e; simp at h; subst h; simp
    next => simp [ih h]

end SMap

/-- The cell of a key. -/
def valOf (m : KMap) (k : Str) : Option Addr := (m.get? k).bind (·.value)

/-- The children of a key. -/
def kidsOf (m : KMap) (k : Str) : Option Children := (m.get? k).map (·.subkeys)

theorem valOf_insert (m : KMap) (k k' : Str) (hv : HashValue) : valOf (m.insert k hv) k' = if k = k' then hv.value else valOf m k' := by
  simp only [valOf, SMap.get?_insert]; split <;> rfl

theorem kidsOf_insert (m : KMap) (k k' : Str) (hv : HashValue) : kidsOf (m.insert k hv) k' = if k = k' then some hv.subkeys else kidsOf m k' := by
  simp only [kidsOf, SMap.get?_insert]; split <;> rfl

theorem valOf_some {m : KMap} {k : Str} {a : Addr} : valOf m k = some a ↔ ∃ s, m.get? k = some ⟨some a, s⟩ := by
  simp only [valOf, Option.bind_eq_some_iff]
  constructor
  · rintro ⟨⟨v, s⟩, h1, h2⟩
    simp at h2; subst h2; exact ⟨s, h1⟩
  · rintro ⟨s, h⟩; exact ⟨_, h, rfl⟩

/-- No name twice. -/
def KidsOk : Children → Prop
  | .count _ => True
  | .keys ks => ks.Nodup

/-- Invariants of the key table over a heap of `n` cells: addresses exist, no cell has two keys, children are distinct. -/
structure MapInv (m : KMap) (n : Nat) : Prop where
  lt : ∀ k (a : Nat), valOf m k = some a → a < n
  inj : ∀ k k' a, valOf m k = some a → valOf m k' = some a → k = k'
  kids : ∀ k c, kidsOf m k = some c → KidsOk c

theorem MapInv.mono {m : KMap} {n n' : Nat} (h : MapInv m n) (hn : n ≤ n') : MapInv m n' :=
  ⟨fun k a ha => Nat.lt_of_lt_of_le (h.lt k a ha) hn, h.inj, h.kids⟩

theorem MapInv.insert {m : KMap} {n : Nat} (h : MapInv m n) {k : Str} {hv : HashValue}
    (hval : ∀ a : Nat, hv.value = some a → a < n ∧ ∀ k', valOf m k' = some a → k' = k) (hk : KidsOk hv.subkeys) : MapInv (m.insert k hv) n := by
  refine ⟨?_, ?_, ?_⟩
  · intro k' a
    rw [valOf_insert]
    split
    · exact fun ha => (hval a ha).1
    · exact h.lt k' a
  · intro k1 k2 a
    rw [valOf_insert, valOf_insert]
    split <;> split
    · intro _ _; simp_all
    next h1 h2 =>
      intro ha hb
      rw [← h1]; exact ((hval a ha).2 _ hb).symm
    next h1 h2 =>
      intro hb ha
      rw [← h2]; exact (hval a ha).2 _ hb
    · exact h.inj k1 k2 a
  · intro k' c
    rw [kidsOf_insert]
    split
    · intro e; simp at e; subst e; exact hk
    · exact h.kids k' c

/-- Replacing the children only. -/
theorem MapInv.insertKids {m : KMap} {n : Nat} (h : MapInv m n) {k : Str} {hv : HashValue} {c : Children} (hg : m.get? k = some hv) (hk : KidsOk c) :
    MapInv (m.insert k ⟨hv.value, c⟩) n := by
  have he : valOf m k = hv.value := by simp [valOf, hg]
  refine h.insert (fun a ha => ?_) hk
  have : valOf m k = some a := by rw [he]; exact ha
  exact ⟨h.lt k a this, fun k' hk' => h.inj _ _ a hk' this⟩

/-- A new entry without a value. -/
theorem MapInv.insertNone {m : KMap} {n : Nat} (h : MapInv m n) (k : Str) {c : Children} (hk : KidsOk c) :
    MapInv (m.insert k ⟨none, c⟩) n :=
  h.insert (fun a ha => by simp at ha) hk

theorem MapInv.get {m : KMap} {n : Nat} (h : MapInv m n) {k : Str} {hv : HashValue} (hg : m.get? k = some hv) : KidsOk hv.subkeys :=
  h.kids k _ (by simp [kidsOf, hg])

theorem insertUniq_nodup {ks : List Str} {k : Str} (h : ks.Nodup) : (insertUniq ks k).1.Nodup := by
  unfold insertUniq
  split
  · exact h
  next hk =>
    rw [List.nodup_append]
    refine ⟨h, by simp, ?_⟩
    intro a ha b hb
    simp at hb
    subst hb
    exact fun e => hk (e ▸ ha)

theorem mem_insertUniq {ks : List Str} {k x : Str} : x ∈ (insertUniq ks k).1 ↔ x ∈ ks ∨ x = k := by
  unfold insertUniq
  split
  next h => simp; intro e; subst e; exact h
  next h => simp

/-! ## Outcomes -/

/-- The value satisfies a predicate, a panic another; the recursion bound is never reached. -/
def Out.All {α : Type} (I : α → Prop) (bad : Panic → Prop) : Out α → Prop
  | .ok a => I a
  | .panic p => bad p
  | .fuel => False

theorem Out.All.bind {α β : Type} {I : α → Prop} {J : β → Prop} {bad : Panic → Prop} {x : Out α} {f : α → Out β}
    (h : x.All I bad) (hf : ∀ a, I a → x = .ok a → (f a).All J bad) : (x.bind f).All J bad := by
  cases x with
  | ok a => exact hf a h rfl
  | panic p => exact h
  | fuel => exact h

theorem Out.All.mono {α : Type} {I J : α → Prop} {bad bad' : Panic → Prop} {x : Out α} (h : x.All I bad) (hi : ∀ a, I a → J a)
    (hb : ∀ p, bad p → bad' p) : x.All J bad' := by
  cases x with
  | ok a => exact hi a h
  | panic p => exact hb p h
  | fuel => exact h

theorem Out.All.ok {α : Type} {I : α → Prop} {bad : Panic → Prop} {a : α} (h : I a) : (Out.ok a).All I bad := h

/-- The panics that reading a document can end in. -/
def parsePanic (p : Panic) : Prop :=
  p = .keyNotInMap ∨ p = .stdTableIndexed ∨ p = .implicitStd ∨ p = .addKeyToArray ∨ p = .underflow

/-! ## Keys of table headers -/

theorem keyParentLoop_all : ∀ (ts : List TableType) (is : List Nat) (kp : Str) (pe : Nat), ts.length = is.length →
    ∃ s, keyParentLoop ts is kp pe = .ok s
  | _, [], kp, pe, _ => ⟨kp, by simp [keyParentLoop]⟩
  | [], _ :: _, _, _, h => by simp at h
  | .std _ :: ts, _ :: is, kp, pe, h => by
    simp only [keyParentLoop]; exact keyParentLoop_all ts is _ _ (by simpa using h)
  | .arr t :: ts, i :: is, kp, pe, h => by
    simp only [keyParentLoop]; exact keyParentLoop_all ts is _ _ (by simpa using h)

theorem getKeyParent_ok {ts : List TableType} {is : List Nat} (h : ts.length = is.length) : ∃ s, getKeyParent ts is = .ok s :=
  keyParentLoop_all ts is [] 0 h

theorem arrKeyInner_all (m : KMap) : ∀ (ks : List Str) (fk : Str), (arrKeyInner m ks fk).All (fun _ => True) parsePanic
  | [], fk => by simp [arrKeyInner, Out.All]
  | [k], fk => by simp [arrKeyInner, Out.All]
  | k :: k' :: ks, fk => by
    unfold arrKeyInner
    dsimp only
    split
    · simp [Out.All, parsePanic]
    · split
      · split <;> exact arrKeyInner_all m (k' :: ks) _
      · split
        · split <;> exact arrKeyInner_all m (k' :: ks) _
        · simp [Out.All, parsePanic]

theorem arrayTableKeyLoop_all (m : KMap) (h : Heap) : ∀ (ts : List TableType) (is : List Nat) (fk : Str) (pe : Nat) (v : Bool) (pk : Str),
    is.length ≤ ts.length → (arrayTableKeyLoop m h ts is fk pe v pk).All (fun _ => True) parsePanic
  | _, [], _, _, _, _, _ => by simp [arrayTableKeyLoop, Out.All]
  | [], _ :: _, _, _, _, _, hl => by simp at hl
  | .std t :: ts, i :: is, fk, pe, v, pk, hl => by
    simp only [arrayTableKeyLoop]
    exact arrayTableKeyLoop_all m h ts is _ _ _ _ (by simpa using hl)
  | .arr t :: ts, i :: is, fk, pe, v, pk, hl => by
    have hl' : is.length ≤ ts.length := by simpa using hl
    simp only [arrayTableKeyLoop, Out.bind_eq]
    refine (arrKeyInner_all m _ _).bind fun fk' _ _ => ?_
    refine Out.All.bind (I := fun _ => True) ?_ fun idx _ _ => ?_
    · unfold arrTableIndex
      split
      · split
        · simp [Out.All, parsePanic]
        · trivial
      · trivial
    · split
      · exact arrayTableKeyLoop_all m h ts is _ _ _ _ hl'
      · exact arrayTableKeyLoop_all m h ts is _ _ _ _ hl'

theorem getArrayTableKey_all (m : KMap) (h : Heap) (ts : List TableType) (is : List Nat) (hl : is.length ≤ ts.length) :
    (getArrayTableKey m h ts is).All (fun _ => True) parsePanic := arrayTableKeyLoop_all m h ts is _ _ _ _ hl

theorem getFullKey_all (m : KMap) (h : Heap) (ts : List TableType) (is : List Nat) (kc : List Key) (hl : is.length ≤ ts.length) :
    (getFullKey m h ts is kc).All (fun _ => True) parsePanic := by
  simp only [getFullKey, Out.bind_eq]
  exact (getArrayTableKey_all m h ts is hl).bind fun a _ _ => trivial

/-! ## Updates of the key table keep its invariants -/

theorem updateParent_inv {m : KMap} {n : Nat} (h : MapInv m n) (parent : Str) (last : Key) : MapInv (updateParent m parent last) n := by
  unfold updateParent
  split
  next hv hg =>
    split
    · exact h.insertKids hg trivial
    next ks s hk =>
      have := h.get hg; rw [hk] at this
      exact h.insertKids hg (insertUniq_nodup this)
    · exact h
  · split
    · exact h.insertNone _ trivial
    · exact h.insertNone _ (by simp [KidsOk])

theorem implicitLoop_inv {n : Nat} : ∀ (ks : List Str) (m : KMap) (lk : Str) (first : Bool), MapInv m n →
    (implicitLoop ks m lk first).All (fun m' => MapInv m' n) parsePanic
  | [], m, _, _, h => h
  | k :: ks, m, lk, first, h => by
    have key : ∀ (m' : KMap) (ins f : Bool), MapInv m' n →
        Out.All (fun m' => MapInv m' n) parsePanic (if ks = [] then Out.ok m'
          else implicitLoop ks (if ins then m'.insert (if lk ≠ root then lk ++ lit% "." ++ k else k) ⟨none, .keys []⟩ else m')
            (if lk ≠ root then lk ++ lit% "." ++ k else k) f) := by
      intro m' ins f h'
      split
      · exact h'
      · apply implicitLoop_inv ks
        split
        · exact h'.insertNone _ (by simp [KidsOk])
        · exact h'
    unfold implicitLoop
    cases hg : m.get? lk with
    | none => exact key m false first h
    | some hv =>
      cases hs : hv.subkeys with
      | keys names =>
        have := h.get hg; rw [hs] at this
        simp only [hs]
        exact key _ _ _ (h.insertKids hg (insertUniq_nodup this))
      | count c =>
        cases first with
        | true =>
          simp only [hs, if_true]
          have := key _ true false (h.insertKids (c := .count (c + 1)) hg trivial)
          simpa using this
        | false => simp [hs, Out.All, parsePanic]

theorem addImplicitTables_inv {m : KMap} {n : Nat} (h : MapInv m n) (hp : Heap) {ts : List TableType} {is : List Nat} (t : TableType)
    (hl : is.length ≤ ts.length) : (addImplicitTables m hp ts is t).All (fun m' => MapInv m' n) parsePanic := by
  simp only [addImplicitTables, Out.bind_eq]
  refine (getArrayTableKey_all m hp ts is hl).bind fun ⟨valid, lk, pk⟩ _ _ => ?_
  dsimp only
  split
  · exact h
  · exact implicitLoop_inv _ _ _ _ h

theorem incrementArrayTableIndex_inv {m : KMap} {n : Nat} (h : MapInv m n) {ts : List TableType} {is : List Nat} (hl : ts.length = is.length) :
    (incrementArrayTableIndex m ts is).All (fun x => MapInv x.1 n ∧ x.2.length = is.length) parsePanic := by
  obtain ⟨s, hs⟩ := getKeyParent_ok hl
  simp only [incrementArrayTableIndex, Out.bind_eq, hs, Out.bind]
  cases hi : is.getLast? with
  | none => simp [Out.All, parsePanic]
  | some i =>
    have hne : is ≠ [] := by rintro rfl; simp at hi
    have hlen : 0 < is.length := List.length_pos_iff.mpr hne
    refine ⟨?_, by simp; omega⟩
    split
    next v c hg => exact h.insertKids (c := .count (c + 1)) hg trivial
    · exact h

theorem addToTableSet_inv {m : KMap} {n : Nat} (h : MapInv m n) {ts : List TableType} {is : List Nat} (hl : ts.length = is.length) (k : Str) :
    (addToTableSet m ts is k).All (fun m' => MapInv m' n) parsePanic := by
  obtain ⟨s, hs⟩ := getKeyParent_ok hl
  simp only [addToTableSet, Out.bind_eq, hs, Out.bind]
  split
  next v ks hg => exact h.insertKids hg (insertUniq_nodup (h.get hg))
  · exact h

theorem popLoop_length (stop : TableType → Bool) : ∀ (n : Nat) (ts : List TableType) (is : List Nat), ts.length = is.length →
    (popLoop stop n ts is).1.length = (popLoop stop n ts is).2.length
  | 0, ts, is, h => h
  | n + 1, ts, is, h => by
    unfold popLoop
    split
    · exact h
    · split
      · exact h
      · exact popLoop_length stop n _ _ (by simp [h])

end Tomllib
