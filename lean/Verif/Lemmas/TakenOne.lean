import Verif.Lemmas.TakenDoc
/-!
# There is only one way to take a text
-/

namespace Tomllib
open P

theorem done_one {α : Type} {p : P α} {st s1 s2 : PState} {i i' r r' : Str} {a a' : α} (e : i = i') (h : p st i = .ok (s1, .done r a))
    (h' : p st i' = .ok (s2, .done r' a')) : a = a' ∧ r = r' := by
  subst e
  rw [h] at h'
  simp at h'
  exact ⟨h'.2.2, h'.2.1⟩

theorem key_one {k k' i i' : Str} (hk : KeyWf k) (hk' : KeyWf k') (hi : NoKey i) (hi' : NoKey i') (e : k ++ i = k' ++ i') : k = k' ∧ i = i' :=
  done_one e (key_fwd hk hi PState.new) (key_fwd hk' hi' PState.new)

theorem blank_one {w w' i i' : Str} (hw : Blank w) (hw' : Blank w') (hi : Avoids (lit% " \t") i) (hi' : Avoids (lit% " \t") i') (e : w ++ i = w' ++ i') :
    w = w' ∧ i = i' := done_one e (ws_fwd hw hi PState.new) (ws_fwd hw' hi' PState.new)

theorem eqSign_one {s s' : WSSep} {i i' : Str} (hs : s.wf) (hs' : s'.wf) (hi : Avoids (lit% " \t") i) (hi' : Avoids (lit% " \t") i')
    (e : s.ws1 ++ lit% "=" ++ s.ws2 ++ i = s'.ws1 ++ lit% "=" ++ s'.ws2 ++ i') : s = s' ∧ i = i' :=
  done_one e (keyvalSep_fwd hs hi PState.new) (keyvalSep_fwd hs' hi' PState.new)

theorem gap_one {cs cs' : List CNL} {i i' : Str} (h : GapTaken cs i) (h' : GapTaken cs' i') (hi : Avoids (lit% " \t\n\r#") i)
    (hi' : Avoids (lit% " \t\n\r#") i') (e : gapText cs ++ i = gapText cs' ++ i') : cs = cs' ∧ i = i' :=
  done_one e (h.fwd hi PState.new) (h'.fwd hi' PState.new)

theorem apart_one {sep sep' : Option WSSep} {cn cn' : List CNL} {i i' : Str} (h : ApartTaken sep cn i) (h' : ApartTaken sep' cn' i')
    (hi : Avoids (lit% " \t\n\r#,") i) (hi' : Avoids (lit% " \t\n\r#,") i')
    (e : commaText sep ++ gapText cn ++ i = commaText sep' ++ gapText cn' ++ i') : sep = sep' ∧ cn = cn' ∧ i = i' := by
  obtain ⟨e1, e2⟩ := done_one e (h.fwd hi PState.new).1 (h'.fwd hi' PState.new).1
  exact ⟨e1, done_one e2 (h.fwd hi PState.new).2 (h'.fwd hi' PState.new).2⟩

theorem VT.wf.avoids {t : VT} (h : t.wf) (i : Str) : Avoids (lit% " \t") (t.text ++ i) := by
  obtain ⟨c, s, h1, h2⟩ := VT.wf.head h
  intro d x e hd
  simp [h1] at e
  rw [← e.1] at hd
  exact h2 (by simp at hd ⊢; grind)

mutual
theorem VT.taken.one : ∀ (t t' : VT) {r r' : Str}, t.taken r → t'.taken r' → t.text ++ r = t'.text ++ r' → t = t' ∧ r = r'
  | .leaf s, .leaf s', r, r', h, h', e => by
    obtain ⟨e1, e2⟩ := Scalar.taken_unique h h' e
    exact ⟨by rw [e1], e2⟩
  | .arr es c1 c2, .arr es' c1' c2', r, r', h, h', e => by
    rw [VT.taken] at h h'
    obtain ⟨h1, h2, rfl⟩ := h
    obtain ⟨h1', h2', rfl⟩ := h'
    simp [VT.text, gapText, CNL.text] at e
    obtain ⟨e1, e2⟩ := gap_one (by simpa using h1) (by simpa using h1') (h2.wf.avoids (close_avoids r).1).sub (h2'.wf.avoids (close_avoids r').1).sub e
    obtain ⟨e3, e4⟩ := Elems.taken.one es es' h2 h2' e2
    rw [e1, e3]
    exact ⟨rfl, e4⟩
  | .itab kvs ⟨w, w2⟩, .itab kvs' ⟨w', w2'⟩, r, r', h, h', e => by
    rw [VT.taken] at h h'
    obtain ⟨h1, h2, h3⟩ := h
    obtain ⟨h1', h2', h3'⟩ := h'
    simp only at h3 h3'
    subst h3 h3'
    simp [VT.text] at e
    obtain ⟨e1, e2⟩ := blank_one h1 h1' (h2.wf.avoids (close_avoids r).2).sub (h2'.wf.avoids (close_avoids r').2).sub e
    obtain ⟨e3, e4⟩ := Pairs.taken.one kvs kvs' h2 h2' e2
    simp only at e1
    rw [e1, e3]
    exact ⟨rfl, e4⟩
  | .leaf s, .arr es c1 c2, r, r', h, h', e => by
    obtain ⟨c, x, h1, h2⟩ := Scalar.wf.head (s := s) h.1
    simp [VT.text, h1] at e
    exact absurd (by rw [e.1]; decide) h2
  | .leaf s, .itab es c1, r, r', h, h', e => by
    obtain ⟨c, x, h1, h2⟩ := Scalar.wf.head (s := s) h.1
    simp [VT.text, h1] at e
    exact absurd (by rw [e.1]; decide) h2
  | .arr es c1 c2, .leaf s, r, r', h, h', e => by
    obtain ⟨c, x, h1, h2⟩ := Scalar.wf.head (s := s) h'.1
    simp [VT.text, h1] at e
    exact absurd (by rw [← e.1]; decide) h2
  | .itab es c1, .leaf s, r, r', h, h', e => by
    obtain ⟨c, x, h1, h2⟩ := Scalar.wf.head (s := s) h'.1
    simp [VT.text, h1] at e
    exact absurd (by rw [← e.1]; decide) h2
  | .arr _ _ _, .itab _ _, r, r', h, h', e => by simp [VT.text] at e
  | .itab _ _, .arr _ _ _, r, r', h, h', e => by simp [VT.text] at e
theorem Elems.taken.one : ∀ (es es' : Elems) {r r' : Str}, es.taken (lit% "]" ++ r) → es'.taken (lit% "]" ++ r') →
    es.text ++ ']' :: r = es'.text ++ ']' :: r' → es = es' ∧ r = r'
  | .nil, .nil, r, r', h, h', e => by simpa [Elems.text] using e
  | .nil, .cons v sep cn es, r, r', h, h', e => by
    rw [Elems.taken] at h'
    obtain ⟨c, s, h1, h2⟩ := VT.wf.head h'.1.wf
    simp [Elems.text, h1] at e
    exact absurd (by rw [← e.1]; decide) h2
  | .cons v sep cn es, .nil, r, r', h, h', e => by
    rw [Elems.taken] at h
    obtain ⟨c, s, h1, h2⟩ := VT.wf.head h.1.wf
    simp [Elems.text, h1] at e
    exact absurd (by rw [e.1]; decide) h2
  | .cons v sep cn es, .cons v' sep' cn' es', r, r', h, h', e => by
    rw [Elems.taken] at h h'
    obtain ⟨h1, h2, h3⟩ := h
    obtain ⟨h1', h2', h3'⟩ := h'
    obtain ⟨e1, e2⟩ := VT.taken.one v v' h1 h1' (by simpa [Elems.text] using e)
    obtain ⟨e3, e4, e5⟩ := apart_one h2 h2' (h3.wf.avoids (close_avoids r).1) (h3'.wf.avoids (close_avoids r').1) (by simpa using e2)
    obtain ⟨e6, e7⟩ := Elems.taken.one es es' h3 h3' e5
    rw [e1, e3, e4, e6]
    exact ⟨rfl, e7⟩
theorem Pairs.taken.one : ∀ (es es' : Pairs) {r r' : Str}, es.taken (lit% "}" ++ r) → es'.taken (lit% "}" ++ r') →
    es.text ++ '}' :: r = es'.text ++ '}' :: r' → es = es' ∧ r = r'
  | .nil, .nil, r, r', h, h', e => by simpa [Pairs.text] using e
  | .nil, .cons k ws v sep cn es, r, r', h, h', e => by
    rw [Pairs.taken] at h'
    obtain ⟨c, s, h1, h2⟩ := h'.1.head
    simp [Pairs.text, h1] at e
    exact absurd (by rw [← e.1]; decide) h2
  | .cons k ws v sep cn es, .nil, r, r', h, h', e => by
    rw [Pairs.taken] at h
    obtain ⟨c, s, h1, h2⟩ := h.1.head
    simp [Pairs.text, h1] at e
    exact absurd (by rw [e.1]; decide) h2
  | .cons k ws v sep cn es, .cons k' ws' v' sep' cn' es', r, r', h, h', e => by
    rw [Pairs.taken] at h h'
    obtain ⟨h0, hw, h1, h2, h3⟩ := h
    obtain ⟨h0', hw', h1', h2', h3'⟩ := h'
    obtain ⟨a1, a2⟩ := key_one (i := ws.ws1 ++ lit% "=" ++ ws.ws2 ++ (v.text ++ (commaText sep ++ gapText cn ++ es.text ++ '}' :: r)))
      (i' := ws'.ws1 ++ lit% "=" ++ ws'.ws2 ++ (v'.text ++ (commaText sep' ++ gapText cn' ++ es'.text ++ '}' :: r')))
      h0 h0' (sep_nokey hw) (sep_nokey hw') (by simpa [Pairs.text] using e)
    obtain ⟨a3, a4⟩ := eqSign_one hw hw' (h1.wf.avoids _) (h1'.wf.avoids _) a2
    obtain ⟨e1, e2⟩ := VT.taken.one v v' h1 h1' (by simpa using a4)
    obtain ⟨e3, e4, e5⟩ := apart_one h2 h2' (h3.wf.avoids (close_avoids r).2) (h3'.wf.avoids (close_avoids r').2) (by simpa using e2)
    obtain ⟨e6, e7⟩ := Pairs.taken.one es es' h3 h3' e5
    rw [a1, a3, e1, e3, e4, e6]
    exact ⟨rfl, e7⟩
end

/-! ## Lines -/

/-- After the opening bracket of a single header there is no other one. -/
theorem TableType.std_head {t : Table} (h : (TableType.std t).wf) (i : Str) : ∃ d y, (TableType.std t).text ++ i = '[' :: d :: y ∧ d ≠ '[' := by
  obtain ⟨ks⟩ := t
  cases ks with
  | nil => exact absurd rfl h.1
  | cons k ks =>
    have hk := h.2 k (by simp [TableType.table])
    obtain ⟨c, z, h3, h4⟩ := hk.2.head
    cases hw : k.ws.ws1 with
    | nil => exact ⟨c, z ++ subkeysText ks ++ k.ws.ws2 ++ lit% "]" ++ i, by simp [TableType.text, Table.text, hw, h3], fun e => h4 (by rw [e]; decide)⟩
    | cons b w =>
      refine ⟨b, w ++ k.key ++ subkeysText ks ++ k.ws.ws2 ++ lit% "]" ++ i, by simp [TableType.text, Table.text, hw], ?_⟩
      rcases hk.1.1 b (by simp [hw]) with rfl | rfl <;> decide

theorem header_one {t t' : TableType} {i i' : Str} (h : t.wf) (h' : t'.wf) (e : t.text ++ i = t'.text ++ i') : t = t' ∧ i = i' := by
  have hm : ∀ (t t' : Table) (j j' : Str), (TableType.std t).wf → (TableType.std t).text ++ j ≠ (TableType.arr t').text ++ j' := by
    intro t t' j j' h e
    obtain ⟨d, y, e1, e2⟩ := TableType.std_head h j
    rw [e1] at e
    simp [TableType.text] at e
    exact e2 e.1
  cases t with
  | std t =>
    cases t' with
    | std t' =>
      have g := header_fwd (o := lit% "[") (c := lit% "]") (act := fun t st => .ok (st, .std t)) h.1 h.2 ⟨_, rfl⟩ (i := i) PState.new
      have g' := header_fwd (o := lit% "[") (c := lit% "]") (act := fun t st => .ok (st, .std t)) h'.1 h'.2 ⟨_, rfl⟩ (i := i') PState.new
      simp only [Out.ok_bind] at g g'
      obtain ⟨e1, e2⟩ := done_one (by simpa [TableType.text, TableType.table] using e) g g'
      simp [TableType.table] at e1
      exact ⟨by rw [e1], e2⟩
    | arr t' => exact absurd e (hm _ _ _ _ h)
  | arr t =>
    cases t' with
    | std t' => exact absurd e.symm (hm _ _ _ _ h')
    | arr t' =>
      have g := header_fwd (o := lit% "[[") (c := lit% "]]") (act := fun t st => .ok (st, .arr t)) h.1 h.2 ⟨_, rfl⟩ (i := i) PState.new
      have g' := header_fwd (o := lit% "[[") (c := lit% "]]") (act := fun t st => .ok (st, .arr t)) h'.1 h'.2 ⟨_, rfl⟩ (i := i') PState.new
      simp only [Out.ok_bind] at g g'
      obtain ⟨e1, e2⟩ := done_one (by simpa [TableType.text, TableType.table] using e) g g'
      simp [TableType.table] at e1
      exact ⟨by rw [e1], e2⟩

theorem lineEnd_one {w w' : Str} {c c' : Option Str} {i i' : Str} (h1 : Blank w) (h1' : Blank w') (h2 : CommentWf c) (h2' : CommentWf c') (hi : Eol i)
    (hi' : Eol i') (e : w ++ optComment c ++ i = w' ++ optComment c' ++ i') : w = w' ∧ c = c' ∧ i = i' := by
  obtain ⟨e1, e2⟩ := blank_one h1 h1' (optComment_avoids c hi) (optComment_avoids c' hi') (by simpa using e)
  exact ⟨e1, done_one e2 (optComment_fwd h2 hi PState.new) (optComment_fwd h2' hi' PState.new)⟩

theorem ET.taken.one {e e' : ET} {i i' : Str} (h : e.taken i) (h' : e'.taken i') (hi : Eol i) (hi' : Eol i') (he : e.text ++ i = e'.text ++ i') :
    e = e' ∧ i = i' := by
  /- the blanks at the beginning of the line, and the rest -/
  have front : ∀ (e : ET) {i : Str}, e.taken i → Eol i → ∃ w x, Blank w ∧ Avoids (lit% " \t") x ∧ e.text ++ i = w ++ x ∧
      (match e with
        | .blank w0 => w = w0 ∧ x = i
        | .comment w0 c => w = w0 ∧ x = remark c ++ i
        | .table w0 t w2 c => w = w0 ∧ x = t.text ++ (w2 ++ optComment c ++ i)
        | .kv w0 k s v w2 c => w = w0 ∧ x = k ++ (s.ws1 ++ lit% "=" ++ s.ws2 ++ (v.text ++ (w2 ++ optComment c ++ i)))) := by
    intro e i h hi
    cases e with
    | blank w => exact ⟨w, i, h, hi.avoids.sub, rfl, rfl, rfl⟩
    | comment w c => exact ⟨w, remark c ++ i, h.1, optComment_avoids (some c) hi, by simp [ET.text], rfl, rfl⟩
    | table w t w2 c =>
      refine ⟨w, _, h.1, ?_, ?_, rfl, rfl⟩
      · intro d x e; cases t <;> simp [TableType.text] at e <;> rw [← e.1] <;> decide
      · simp [ET.text]
    | kv w k s v w2 c =>
      refine ⟨w, _, h.1, ?_, ?_, rfl, rfl⟩
      · obtain ⟨c, s, h1, h2⟩ := h.2.1.head
        intro d x e hd; simp [h1] at e; rw [← e.1] at hd; exact h2 (by simp at hd ⊢; grind)
      · simp [ET.text]
  obtain ⟨w, x, f1, f2, f3, f4⟩ := front e h hi
  obtain ⟨w', x', f1', f2', f3', f4'⟩ := front e' h' hi'
  rw [f3, f3'] at he
  obtain ⟨g1, g2⟩ := blank_one f1 f1' f2 f2' he
  have hrem : ∀ {c i j : Str}, Eol j → remark c ++ i ≠ j := by
    intro c i j hj e
    exact hj.avoids '#' _ (by rw [← e]; rfl) (by decide)
  have htab : ∀ {t : TableType} {i j : Str}, Eol j → t.text ++ i ≠ j := by
    intro t i j hj e
    cases t <;> simp [TableType.text] at e <;> exact hj.avoids '[' _ e.symm (by decide)
  have hkey : ∀ {k i j : Str}, KeyWf k → Eol j → k ++ i ≠ j := by
    intro k i j hk hj e
    obtain ⟨c, s, h1, h2⟩ := hk.head
    rw [h1] at e
    rcases hj.head c _ e.symm with rfl | rfl <;> exact h2 (by decide)
  have hremtab : ∀ {c i j : Str} {t : TableType}, remark c ++ i ≠ t.text ++ j := by
    intro c i j t e; cases t <;> simp [TableType.text, remark] at e
  have hremkey : ∀ {c i j k : Str}, KeyWf k → remark c ++ i ≠ k ++ j := by
    intro c i j k hk e
    obtain ⟨c, s, h1, h2⟩ := hk.head
    rw [h1] at e; simp [remark] at e
    exact h2 (by rw [← e.1]; decide)
  have hkeytab : ∀ {i j k : Str} {t : TableType}, KeyWf k → k ++ i ≠ t.text ++ j := by
    intro i j k t hk e
    obtain ⟨c, s, h1, h2⟩ := hk.head
    rw [h1] at e
    cases t <;> simp [TableType.text] at e <;> exact h2 (by rw [e.1]; decide)
  cases e with
  | blank w0 =>
    simp only at f4; obtain ⟨rfl, rfl⟩ := f4
    cases e' with
    | blank w0' => simp only at f4'; obtain ⟨rfl, rfl⟩ := f4'; rw [g1]; exact ⟨rfl, g2⟩
    | comment w0' c' => simp only at f4'; obtain ⟨rfl, rfl⟩ := f4'; exact absurd g2.symm (hrem hi)
    | table w0' t' w2' c' => simp only at f4'; obtain ⟨rfl, rfl⟩ := f4'; exact absurd g2.symm (htab hi)
    | kv w0' k' s' v' w2' c' => simp only at f4'; obtain ⟨rfl, rfl⟩ := f4'; exact absurd g2.symm (hkey h'.2.1 hi)
  | comment w0 c =>
    simp only at f4; obtain ⟨rfl, rfl⟩ := f4
    cases e' with
    | blank w0' => simp only at f4'; obtain ⟨rfl, rfl⟩ := f4'; exact absurd g2 (hrem hi')
    | comment w0' c' =>
      simp only at f4'; obtain ⟨rfl, rfl⟩ := f4'
      obtain ⟨a, b⟩ := done_one g2 (comment_fwd h.2 hi.notEol PState.new) (comment_fwd h'.2 hi'.notEol PState.new)
      rw [g1, a]; exact ⟨rfl, b⟩
    | table w0' t' w2' c' => simp only at f4'; obtain ⟨rfl, rfl⟩ := f4'; exact absurd g2 hremtab
    | kv w0' k' s' v' w2' c' => simp only at f4'; obtain ⟨rfl, rfl⟩ := f4'; exact absurd g2 (hremkey h'.2.1)
  | table w0 t w2 c =>
    simp only at f4; obtain ⟨rfl, rfl⟩ := f4
    cases e' with
    | blank w0' => simp only at f4'; obtain ⟨rfl, rfl⟩ := f4'; exact absurd g2 (htab hi')
    | comment w0' c' => simp only at f4'; obtain ⟨rfl, rfl⟩ := f4'; exact absurd g2.symm hremtab
    | table w0' t' w2' c' =>
      simp only at f4'; obtain ⟨rfl, rfl⟩ := f4'
      obtain ⟨a, b⟩ := header_one h.2.1 h'.2.1 g2
      obtain ⟨b1, b2, b3⟩ := lineEnd_one h.2.2.1 h'.2.2.1 h.2.2.2 h'.2.2.2 hi hi' b
      rw [g1, a, b1, b2]; exact ⟨rfl, b3⟩
    | kv w0' k' s' v' w2' c' => simp only at f4'; obtain ⟨rfl, rfl⟩ := f4'; exact absurd g2.symm (hkeytab h'.2.1)
  | kv w0 k s v w2 c =>
    simp only at f4; obtain ⟨rfl, rfl⟩ := f4
    cases e' with
    | blank w0' => simp only at f4'; obtain ⟨rfl, rfl⟩ := f4'; exact absurd g2 (hkey h.2.1 hi')
    | comment w0' c' => simp only at f4'; obtain ⟨rfl, rfl⟩ := f4'; exact absurd g2.symm (hremkey h.2.1)
    | table w0' t' w2' c' => simp only at f4'; obtain ⟨rfl, rfl⟩ := f4'; exact absurd g2 (hkeytab h.2.1)
    | kv w0' k' s' v' w2' c' =>
      simp only at f4'; obtain ⟨rfl, rfl⟩ := f4'
      obtain ⟨_, h2, h3, h4, h5, h6⟩ := h
      obtain ⟨_, h2', h3', h4', h5', h6'⟩ := h'
      obtain ⟨a1, a2⟩ := key_one h2 h2' (sep_nokey h3) (sep_nokey h3') g2
      obtain ⟨a3, a4⟩ := eqSign_one h3 h3' (h4.wf.avoids _) (h4'.wf.avoids _) a2
      obtain ⟨a5, a6⟩ := VT.taken.one v v' h4 h4' a4
      obtain ⟨b1, b2, b3⟩ := lineEnd_one h5 h5' h6 h6' hi hi' a6
      rw [g1, a1, a3, a5, b1, b2]; exact ⟨rfl, b3⟩

theorem LinesTaken.one : ∀ {ls ls' : List (Str × ET)}, LinesTaken ls → LinesTaken ls' → linesText ls = linesText ls' → ls = ls'
  | [], [], _, _, _ => rfl
  | [], (nl, e) :: ls, _, h, he => by
    have := h.1; simp only at this
    rcases this with rfl | rfl <;> simp [linesText] at he
  | (nl, e) :: ls, [], h, _, he => by
    have := h.1; simp only at this
    rcases this with rfl | rfl <;> simp [linesText] at he
  | (nl, e) :: ls, (nl', e') :: ls', h, h', he => by
    obtain ⟨h1, h2, h3⟩ := h
    obtain ⟨h1', h2', h3'⟩ := h'
    simp only at h1 h2 h1' h2'
    obtain ⟨a, b⟩ := done_one (i := nl ++ (e.text ++ linesText ls)) (i' := nl' ++ (e'.text ++ linesText ls')) (by simpa [linesText] using he)
      (newline_fwd h1 _ PState.new) (newline_fwd h1' _ PState.new)
    obtain ⟨c, d⟩ := ET.taken.one h2 h2' h3.eol h3'.eol b
    rw [a, c, LinesTaken.one h3 h3' d]

/-- Two documents that are taken and have the same text are the same. -/
theorem DocTaken.one : ∀ {ls ls' : List (Str × ET)}, DocTaken ls → DocTaken ls' → linesText ls = linesText ls' → ls = ls'
  | [], _, h, _, _ => h.elim
  | _ :: _, [], _, h, _ => h.elim
  | (nl, e) :: ls, (nl', e') :: ls', h, h', he => by
    obtain ⟨h1, h2, h3⟩ := h
    obtain ⟨h1', h2', h3'⟩ := h'
    simp only at h1 h2 h1' h2'
    subst h1 h1'
    obtain ⟨c, d⟩ := ET.taken.one h2 h2' h3.eol h3'.eol (by simpa [linesText] using he)
    rw [c, LinesTaken.one h3 h3' d]

end Tomllib
