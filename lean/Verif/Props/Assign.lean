import Verif.Lemmas.Assign
import Verif.Lemmas.Witness
import Verif.Props.Edit
import Verif.Props.Tables
import Verif.Lemmas.ForAssign
import Verif.Lemmas.HistWalk
/-!
# What becomes of an assignment: C48
-/

namespace Tomllib

/-- C48. What `set_value` answers is decided by the old and the new value: it is the outcome `assignment w v`. (For keys whose parts are free.) -/
theorem C48_outcome {p : Parser} (hp : Reachable p) {key : Str} (hk : key ≠ []) {w : Value} (hw : p.getValue key = .ok (some w)) (v : Value)
    (hvac : Vacant p key v) :
    match assignment w v with
    | .taken => ∃ p', p.setValue key v = .ok (p', true)
    | .refused => ∃ p', p.setValue key v = .ok (p', false)
    | .panics => ∃ x, p.setValue key v = .panic x := by
  have hP := hp.inv
  obtain ⟨a, t, fp, h1, h2, h3⟩ := hP.inv.of_getValue hw
  obtain ⟨c0, hg⟩ := valOf_some.mp h1
  obtain ⟨subs, hsub, hlong⟩ := allSubkeys_ok p.st.map key
  have hst : sameStructure p.st.heap a v = (w.sameShape v && v.deepValid) := by rw [sameStructure_rep _ h2, VT.fits_eq, h3]
  have hconv := convertVector_verdict v p.st.heap
  have htk := verdict_taken v
  have hbad : v.deepValid = false → p.setValue key v = (convertVector p.st.heap v).bind fun x => match x.2 with
      | none => .ok ({ p with st := { p.st with map := eraseAll p.st.map subs, heap := x.1 } }, false)
      | some _ => p.setValue key v := by
    intro hd
    rw [hd] at htk hst
    cases hc : convertVector p.st.heap v with
    | ok x =>
      obtain ⟨h', o⟩ := x
      cases o with
      | none =>
        unfold Parser.setValue
        simp only [hg, hst, Bool.and_false, Bool.false_eq_true, if_false, Out.bind_eq, hsub, Out.bind, hc]
      | some _ => rfl
    | panic x =>
      unfold Parser.setValue
      simp only [hg, hst, Bool.and_false, Bool.false_eq_true, if_false, Out.bind_eq, hsub, Out.bind, hc]
    | fuel =>
      rw [hc] at hconv
      exact hconv.elim
  unfold assignment
  cases hvd : v.verdict with
  | refused =>
    have hd : v.deepValid = false := by rw [hvd] at htk; simpa using htk
    rw [hvd] at hconv
    dsimp only
    rw [hbad hd]
    cases hc : convertVector p.st.heap v with
    | ok x =>
      obtain ⟨h', o⟩ := x
      rw [hc] at hconv
      cases o with
      | none => exact ⟨_, rfl⟩
      | some _ => simp [Converted] at hconv
    | panic x => rw [hc] at hconv; simp [Converted] at hconv
    | fuel => rw [hc] at hconv; exact hconv.elim
  | panics =>
    have hd : v.deepValid = false := by rw [hvd] at htk; simpa using htk
    rw [hvd] at hconv
    dsimp only
    rw [hbad hd]
    cases hc : convertVector p.st.heap v with
    | ok x =>
      obtain ⟨h', o⟩ := x
      rw [hc] at hconv
      cases o <;> simp [Converted] at hconv
    | panic x => exact ⟨x, rfl⟩
    | fuel => rw [hc] at hconv; exact hconv.elim
  | taken =>
    have hd : v.deepValid = true := htk.mp hvd
    rw [hd, Bool.and_true] at hst
    dsimp only
    cases hsh : w.sameShape v with
    | true =>
      rw [hsh] at hst
      simp only [if_true]
      obtain ⟨h', e, _⟩ := replaceValues_agree v hst (Agree.refl p.st.heap)
      refine ⟨{ p with st := { p.st with heap := h' } }, ?_⟩
      unfold Parser.setValue
      simp only [hg, hst, Out.bind_eq, e, Out.bind, if_true]
    | false =>
      rw [hsh] at hst
      simp only [Bool.false_eq_true, if_false]
      cases hsc : v.scalar? with
      | some s =>
        simp only [Option.isSome_some, if_true]
        have hval := Value.scalar_eq hsc
        refine ⟨.setNotVector, ?_⟩
        rw [hval] at hst hd ⊢
        unfold Parser.setValue
        simp only [hg, hst, Bool.false_eq_true, if_false, Out.bind_eq, hsub, Out.bind]
        cases s <;> simp_all [Scalar.value, convertVector, Value.deepValid]
      | none =>
        simp only [Option.isSome_none, Bool.false_eq_true, if_false]
        have hparts : ∀ key, ((v.parts key).all fun q => q.2.scalar?.isSome) = (v.parts []).all fun q => q.2.scalar?.isSome := by
          intro key
          cases v with
          | arr vs =>
            rw [Bool.eq_iff_iff]
            simp only [Value.parts, List.all_eq_true, List.mem_mapIdx]
            constructor
            · rintro h q ⟨i, hi, rfl⟩; exact h (key ++ lit% "[" ++ decimal i ++ lit% "]", vs[i]) ⟨i, hi, rfl⟩
            · rintro h q ⟨i, hi, rfl⟩; exact h ([] ++ lit% "[" ++ decimal i ++ lit% "]", vs[i]) ⟨i, hi, rfl⟩
          | itab vs => simp only [Value.parts, List.all_map, Function.comp_def]
          | _ => simp [Value.scalar?] at hsc
        cases hall : (v.parts []).all fun q => q.2.scalar?.isSome with
        | false =>
          simp only [Bool.false_eq_true, if_false]
          exact ⟨_, setValue_nested hP hk h1 hst hsc hd hvac ((hparts key).trans hall)⟩
        | true =>
          simp only [if_true]
          rw [List.all_eq_true] at hall
          cases v with
          | arr vs =>
            have hs : allScalar vs := by
              intro x hx
              obtain ⟨i, hi, rfl⟩ := List.getElem_of_mem hx
              exact hall ([] ++ lit% "[" ++ decimal i ++ lit% "]", vs[i]) (by rw [Value.parts, List.mem_mapIdx]; exact ⟨i, hi, rfl⟩)
            obtain ⟨p', _, _, e, _⟩ := setValue_flat hP h1 hs (by simpa [Value.deepValid] using hd) hst hsub
            exact ⟨p', e⟩
          | itab vs =>
            have hs : allScalar (vs.map (·.2)) := by
              intro x hx
              obtain ⟨kv, hkv, rfl⟩ := List.mem_map.mp hx
              exact hall ([] ++ lit% "." ++ kv.1, kv.2) (by rw [Value.parts, List.mem_map]; exact ⟨kv, hkv, rfl⟩)
            obtain ⟨p', _, _, _, e, _⟩ := setValue_flatTab hP hg hs (by simpa [Value.deepValid] using hd) hst hsub
            exact ⟨p', e⟩
          | _ => simp [Value.scalar?] at hsc

/-- C48, with the walk of the keys in order. -/
theorem outcome_of {D : Sections} {p : Parser} (hP : Reachable p) (hwk : D.Walks p) {key : Str} (hk : key ≠ []) (hroot : key ≠ root) {w : Value} (hw : p.getValue key = .ok (some w))
    (v : Value) (hv : v.named) :
    match assignment w v with
    | .taken => ∃ p', p.setValue key v = .ok (p', true)
    | .refused => ∃ p', p.setValue key v = .ok (p', false)
    | .panics => ∃ x, p.setValue key v = .panic x := by
  refine C48_outcome hP hk hw v ?_
  obtain ⟨q, hq, rfl⟩ : ∃ q, PathWf q ∧ key = keyOf [] q := by
    refine Classical.byContradiction fun hn => ?_
    have := (hwk.ans.other key hk hroot (fun q hq e => hn ⟨q, hq, e⟩)).1
    rw [hw] at this
    simp at this
  have hqne : q ≠ [] := by rintro rfl; exact hk rfl
  have main : ∀ k : Key, PathWf (q ++ [k]) → p.getChildren (keyOf [] (q ++ [k])) = none ∨
      ∃ c, p.getChildren (keyOf [] q) = some c ∧ keyOf [] (q ++ [k]) ∈ c.combineChildKeys (keyOf [] q) := by
    intro k hk'
    cases hc : p.getChildren (keyOf [] (q ++ [k])) with
    | none => exact .inl rfl
    | some c => exact .inr ((hwk.child hk' (.inl hqne)).mp (by simp [hc]))
  have hidx : ∀ i, keyOf [] (q ++ [.idx i]) = keyOf [] q ++ lit% "[" ++ decimal i ++ lit% "]" := by
    intro i; simp [keyOf, Key.add, indexed, decimal_eq]
  have hstr : ∀ s, keyOf [] (q ++ [.str s]) = keyOf [] q ++ lit% "." ++ s := by
    intro s
    have : keyOf [] q ≠ [] := hk
    simp only [keyOf] at this
    simp [keyOf, Key.add, dotted, this]
  cases v with
  | arr vs =>
    refine ⟨?_, fun x hx => ?_⟩
    · rw [Value.parts, List.nodup_iff_pairwise_ne, List.pairwise_map, List.pairwise_iff_getElem]
      intro i j hi hj hij e
      simp only [List.getElem_mapIdx, List.append_assoc] at e
      have := List.append_cancel_left e
      have := idxStr_inj (i := i) (j := j) (by simpa [idxStr] using this)
      omega
    · rw [Value.parts, List.mem_mapIdx] at hx
      obtain ⟨i, hi, rfl⟩ := hx
      have := main (.idx i) (PathWf.pushKey hq hqne (by simp))
      rwa [hidx] at this
  | itab kvs =>
    refine ⟨?_, fun x hx => ?_⟩
    · rw [Value.parts, List.map_map]
      have := hv.2
      rw [List.nodup_iff_pairwise_ne, List.pairwise_map] at this ⊢
      exact this.imp (fun h e => h (List.append_cancel_left e))
    · rw [Value.parts, List.mem_map] at hx
      obtain ⟨kv, hkv, rfl⟩ := hx
      have := main (.str kv.1) (PathWf.pushKey hq hqne (by rintro s e; simp at e; subst e; exact hv.1 kv hkv))
      rwa [hstr] at this
  | _ => exact ⟨by simp [Value.parts], by simp [Value.parts]⟩

/-- C48, for a document in order that has just been read: the outcome of an assignment to any key that has a value is decided by the old and the new
value. -/
theorem C48_after_reading {ls : List (Str × ET)} (h : DocTaken ls) (hf : Sections.Fits {} ls) {p : Parser} {r : ParseResult}
    (hp : Parser.new.parse (linesText ls) = .ok (p, r)) {key : Str} (hk : key ≠ []) (hroot : key ≠ root) {w : Value} (hw : p.getValue key = .ok (some w))
    (v : Value) (hv : v.named) :
    match assignment w v with
    | .taken => ∃ p', p.setValue key v = .ok (p', true)
    | .refused => ∃ p', p.setValue key v = .ok (p', false)
    | .panics => ∃ x, p.setValue key v = .panic x := by
  exact outcome_of (Reachable.new.parse hp) (walks_of h hf hp) hk hroot hw v hv

/-- C48, at every moment of a history of assignments (Spec/History.lean) after reading a document in order. -/
theorem C48_any_time {P : VT → Prop} {ls : List (Str × ET)} {p : Parser} (h : History DocTaken P ls p) {key : Str} (hk : key ≠ []) (hroot : key ≠ root) {w : Value}
    (hw : p.getValue key = .ok (some w)) (v : Value) (hv : v.named) :
    match assignment w v with
    | .taken => ∃ p', p.setValue key v = .ok (p', true)
    | .refused => ∃ p', p.setValue key v = .ok (p', false)
    | .panics => ∃ x, p.setValue key v = .panic x := by
  obtain ⟨fp, hh⟩ := h.hist
  exact outcome_of h.reachable (hh.walks h.down) hk hroot hw v hv

/-- The five ways, on one document. -/
example : ∃ p, Parser.new.parse (lit% "a = [1]\nb = 2") = .ok (p, .full) ∧
    p.getValue (lit% "a") = .ok (some (.arr [.int (lit% "1")])) ∧ p.getValue (lit% "b") = .ok (some (.int (lit% "2"))) ∧
    (p.setValue (lit% "a") (.arr [.bool true])).map' (·.2) = .ok true ∧
    p.setValue (lit% "a") (.arr [.arr []]) = .panic .rebuildVacant ∧
    p.setValue (lit% "a") (.int (lit% "1")) = .panic .setNotVector ∧
    (p.setValue (lit% "b") (.arr [.int (lit% "?"), .itab [(lit% "x", .int (lit% "?"))]])).map' (·.2) = .ok false ∧
    p.setValue (lit% "b") (.arr [.itab [(lit% "x", .int (lit% "?"))], .int (lit% "?")]) = .panic .unwrapNone :=
  Out.wit (by decide +kernel)

end Tomllib
