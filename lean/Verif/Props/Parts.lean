import Verif.Lemmas.Parts
import Verif.Props.Doc
import Verif.Props.Edit
import Verif.Spec.Text
/-!
# Wholes, parts and spelling: C38, C39
-/

namespace Tomllib

/-! ## C38 -/

theorem C38_core {ls : List (Str × ET)} (hw : ∀ l ∈ ls, l.2.wf) (hh : HeadersOk [] [] ls) (hr : repeats [] (docEntries [] ls) = []) {K : Str} :
    (∀ es c1 c2, lookup K (docEntries [] ls) = some (.val (.arr es c1 c2)) → ∀ n,
      lookup (indexed K n) (docEntries [] ls) = es.vts[n]?.map .val) ∧
    (∀ kvs ws, lookup K (docEntries [] ls) = some (.val (.itab kvs ws)) → ∀ k u, KeyWf k →
      (lookup (dotted K k) (docEntries [] ls) = some (.val u) ↔ (k, u) ∈ kvs.kts)) := by
  have hu : ∀ {k t}, (k, Entry.val t) ∈ docEntries [] ls → lookup k (docEntries [] ls) = some (.val t) := fun h => (lookup_unrepeated hr h).2
  constructor
  · intro es c1 c2 hK n
    have hm := lookup_mem hK
    obtain ⟨⟨g1, g2, g3⟩, -⟩ := docEntries_origin hw (.inl rfl) hm
    cases hn : es.vts[n]? with
    | some u =>
      have := Elems.vts_entries es K 0 n hn
      rw [Nat.zero_add] at this
      exact hu (g3 _ this)
    | none =>
      rw [Option.map_none, lookup_none]
      intro e he
      cases e with
      | header =>
        obtain ⟨N, h1, h2⟩ := docEntries_header hw he
        exact g1.idx_ne_nkey n h1 h2
      | val u =>
        obtain ⟨-, g⟩ := docEntries_origin hw (.inl rfl) he
        rcases g with ⟨k, hk, g | g | ⟨T', g, g', g''⟩⟩ | ⟨X0, es', c1', c2', i, e1, e2, e3⟩ | ⟨X0, kvs, ws, k, e1, e2, e3⟩
        · exact g1.idx_ne_one n hk (by rw [g]; simp [dotted])
        · exact g1.idx_ne_one n hk g
        · exact g.str_ne_idx g1 hk n g''.symm
        · obtain ⟨⟨g4, -⟩, -⟩ := docEntries_origin hw (.inl rfl) e2
          obtain ⟨rfl, rfl⟩ := g1.idx_inj g4 e1
          have := hu e2
          rw [hK] at this
          simp at this
          obtain ⟨rfl, -⟩ := this
          rw [hn] at e3
          simp at e3
        · obtain ⟨⟨g4, g5, -⟩, -⟩ := docEntries_origin hw (.inl rfl) e2
          exact g4.str_ne_idx g1 (Pairs.kts_wf g5.2 _ e3) n e1.symm
  · intro kvs ws hK k u hk
    have hm := lookup_mem hK
    obtain ⟨⟨g1, g2, g3⟩, -⟩ := docEntries_origin hw (.inl rfl) hm
    constructor
    · intro he
      obtain ⟨-, g⟩ := docEntries_origin hw (.inl rfl) (lookup_mem he)
      rcases g with ⟨k', hk', g | g | ⟨T', g, g', g''⟩⟩ | ⟨X0, es', c1', c2', i, e1, e2, e3⟩ | ⟨X0, kvs', ws', k', e1, e2, e3⟩
      · exact absurd (by rw [g]; simp [dotted]) (g1.str_ne_one hk hk')
      · exact absurd g (g1.str_ne_one hk hk')
      · obtain ⟨rfl, rfl⟩ := g1.str_inj g hk hk' g''
        have := hh.header (k := K) (.inr g')
        rw [List.nil_append, hK] at this
        simp at this
      · obtain ⟨⟨g4, -⟩, -⟩ := docEntries_origin hw (.inl rfl) e2
        exact absurd e1 (g1.str_ne_idx g4 hk i)
      · obtain ⟨⟨g4, g5, -⟩, -⟩ := docEntries_origin hw (.inl rfl) e2
        obtain ⟨rfl, rfl⟩ := g1.str_inj g4 hk (Pairs.kts_wf g5.2 _ e3) e1
        have := hu e2
        rw [hK] at this
        simp at this
        obtain ⟨rfl, -⟩ := this
        exact e3
    · intro h
      exact hu (g3 _ (Pairs.kts_entries kvs K k h))

/-- C38. In a document without errors an array read whole agrees with its elements read one by one, and an inline table with its values; there are no other
elements, and no other values one level below the table. -/
theorem C38_whole_and_parts {i : Str} {p : Parser} (h : Parser.new.parse i = .ok (p, .full)) :
    ∃ ls, DocWf ls ∧ i = linesText ls ∧ (hasArrayTable ls = false →
      (∀ K vs, p.getValue K = .ok (some (.arr vs)) → ∀ n, p.getValue (indexed K n) = .ok vs[n]?) ∧
      (∀ K kvs, p.getValue K = .ok (some (.itab kvs)) → ∀ k v, KeyWf k → (p.getValue (dotted K k) = .ok (some v) ↔ (k, v) ∈ kvs))) := by
  obtain ⟨ls, px, st1, hP⟩ := parse_parsed h
  obtain ⟨hl, he⟩ := hP.whole (.inl rfl)
  refine ⟨ls, hP.wf, (hP.full hl).2.2, fun hn => ?_⟩
  have hR := hP.reading hl hn
  obtain ⟨hh, hr, -⟩ := (hP.full_iff hl hn).mp rfl
  have core := fun K => C38_core hP.wf.lines hh hr (K := K)
  constructor
  · intro K vs hK n
    rw [hR.getValue hh] at hK ⊢
    cases hlk : lookup K (docEntries [] ls) with
    | none => rw [hlk] at hK; simp [readEntry] at hK
    | some e =>
      rw [hlk] at hK
      cases e with
      | header => simp [readEntry] at hK
      | val t =>
        simp [readEntry] at hK
        cases t with
        | leaf s => cases s <;> simp [VT.value, Scalar.value] at hK
        | itab kvs ws => simp [VT.value] at hK
        | arr es c1 c2 =>
          rw [(core K).1 es c1 c2 hlk n]
          simp [VT.value] at hK
          subst hK
          rw [Elems.values_vts, List.getElem?_map]
          cases es.vts[n]? <;> rfl
  · intro K kvs hK k v hk
    rw [hR.getValue hh] at hK ⊢
    cases hlk : lookup K (docEntries [] ls) with
    | none => rw [hlk] at hK; simp [readEntry] at hK
    | some e =>
      rw [hlk] at hK
      cases e with
      | header => simp [readEntry] at hK
      | val t =>
        simp [readEntry] at hK
        cases t with
        | leaf s => cases s <;> simp [VT.value, Scalar.value] at hK
        | arr kvs ws => simp [VT.value] at hK
        | itab kvs' ws =>
          simp [VT.value] at hK
          subst hK
          rw [Pairs.values_kts, List.mem_map]
          constructor
          · intro hv
            cases hlk' : lookup (dotted K k) (docEntries [] ls) with
            | none => rw [hlk'] at hv; simp [readEntry] at hv
            | some e =>
              rw [hlk'] at hv
              cases e with
              | header => simp [readEntry] at hv
              | val u =>
                simp [readEntry] at hv
                exact ⟨(k, u), ((core K).2 kvs' ws hlk k u hk).mp hlk', by simp [hv]⟩
          · rintro ⟨⟨k', u⟩, h1, h2⟩
            simp at h2
            obtain ⟨rfl, rfl⟩ := h2
            rw [((core K).2 kvs' ws hlk k' u hk).mpr h1]
            rfl

example : ∃ p, Parser.new.parse (lit% "[t]\na = [{b = 1}, {b = 2, \"c d\" = []}]") = .ok (p, .full) ∧
    p.getValue (lit% "t.a") = .ok (some (.arr [.itab [(lit% "b", .int (lit% "1"))], .itab [(lit% "b", .int (lit% "2")), (lit% "\"c d\"", .arr [])]])) ∧
    p.getValue (lit% "t.a[1]") = .ok (some (.itab [(lit% "b", .int (lit% "2")), (lit% "\"c d\"", .arr [])])) ∧
    p.getValue (lit% "t.a[1].\"c d\"") = .ok (some (.arr [])) ∧ p.getValue (lit% "t.a[2]") = .ok none :=
  Out.wit (by decide +kernel)

/-- C38, what goes wrong nevertheless: a table header can add a part to an inline table. -/
theorem C38_header_in_table : ∃ p, Parser.new.parse (lit% "[x.a.b]\n[x]\na = {d = 1}") = .ok (p, .full) ∧
    p.getValue (lit% "x.a") = .ok (some (.itab [(lit% "d", .int (lit% "1"))])) ∧ p.getValue (lit% "x.a.b") = .panic .tableToVal ∧
    p.getChildren (lit% "x.a") = some (.keys [lit% "b", lit% "d"]) :=
  Out.wit (by decide +kernel)

/-! ## C39 -/

/-- C39. Whatever `get_value` returns stands in the text: there is a value of the grammar with exactly these contents whose text, as written in the
document, is a piece of it. For every text that is read to its end, arrays of tables and errors included. -/
theorem C39_values_stand_in_the_text {i : Str} {p : Parser} {r : ParseResult} (h : Parser.new.parse i = .ok (p, r)) (hr : r.whole) {k : Str} {v : Value}
    (hg : p.getValue k = .ok (some v)) : ∃ t : VT, t.value = v ∧ ∃ a b, i = a ++ t.text ++ b := by
  obtain ⟨ls, fp, hA, hw, rfl⟩ := Anchored.parse h hr
  obtain ⟨a, -, F, hF⟩ := hA.focus hg
  exact ⟨F.sub, hF, F.pre, F.post, by rw [← F.text_eq, F.plug_sub]⟩

/-- C39. Scalars are returned with exactly the characters written in the document: numbers and dates as they stand there, strings as they stand between the
quotes of their kind. -/
theorem C39_spelling_is_kept {i : Str} {p : Parser} {r : ParseResult} (h : Parser.new.parse i = .ok (p, r)) (hr : r.whole) {k : Str} :
    (∀ s, p.getValue k = .ok (some (.int s)) → ∃ a b, i = a ++ s ++ b) ∧
    (∀ s, p.getValue k = .ok (some (.float s)) → ∃ a b, i = a ++ s ++ b) ∧
    (∀ d, p.getValue k = .ok (some (.dt d)) → ∃ a b, i = a ++ d.text ++ b) ∧
    (∀ x, p.getValue k = .ok (some (.bool x)) → ∃ a b, i = a ++ boolText x ++ b) ∧
    (∀ s t, p.getValue k = .ok (some (.str s t)) → ∃ a b, i = a ++ (t.quotes ++ s ++ t.quotes) ++ b) := by
  have key : ∀ s : Scalar, p.getValue k = .ok (some s.value) → ∃ a b, i = a ++ s.text ++ b := by
    intro s hg
    obtain ⟨t, h1, h2⟩ := C39_values_stand_in_the_text h hr hg
    have : t = .leaf s := by
      cases t with
      | leaf s' => cases s <;> cases s' <;> simp_all [VT.value, Scalar.value]
      | _ => cases s <;> simp [VT.value, Scalar.value] at h1
    subst this
    exact h2
  exact ⟨fun s => key (.int s), fun s => key (.float s), fun s => key (.dt s), fun s => key (.bool s), fun s t hg => by
    have := key (.str s t) hg
    cases t <;> exact this⟩

example : ∃ p, Parser.new.parse (lit% "a = +1_000 # n\n[[t]]\nb = '''x\n'''") = .ok (p, .full) ∧
    p.getValue (lit% "a") = .ok (some (.int (lit% "+1_000"))) ∧ p.getValue (lit% "t[0].b") = .ok (some (.str (lit% "x\n") .mlLiteral)) :=
  Out.wit (by decide +kernel)

end Tomllib
