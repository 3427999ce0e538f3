import Verif.Lemmas.HistAll
import Verif.Lemmas.Reread
/-!
# Trees that differ only in how blanks are attributed
-/

namespace Tomllib

mutual
/-- The same text, and the same parts with the same texts. -/
def VT.Like : VT → VT → Prop
  | .leaf s, .leaf s' => s = s'
  | .arr es c1 c2, .arr es' c1' c2' => gapText c1 = gapText c1' ∧ es.Like es' ∧ gapText c2 = gapText c2'
  | .itab kvs ws, .itab kvs' ws' => ws.ws1 = ws'.ws1 ∧ kvs.Like ws.ws2 kvs' ws'.ws2
  | _, _ => False
def Elems.Like : Elems → Elems → Prop
  | .nil, .nil => True
  | .cons v sep cn r, .cons v' sep' cn' r' => v.Like v' ∧ sep = sep' ∧ gapText cn = gapText cn' ∧ r.Like r'
  | _, _ => False
/-- The blanks before the closing brace may belong to the last pair. -/
def Pairs.Like : Pairs → Str → Pairs → Str → Prop
  | .nil, w, .nil, w' => w = w'
  | .cons k ws v sep cn r, w, .cons k' ws' v' sep' cn' r', w' =>
    k = k' ∧ ws = ws' ∧ v.Like v' ∧ sep = sep' ∧ (gapText cn = gapText cn' ∧ r.Like w r' w' ∨ r = .nil ∧ r' = .nil ∧ gapText cn ++ w = gapText cn' ++ w')
  | _, _, _, _ => False
end


mutual
theorem VT.Like.refl : ∀ (t : VT), t.Like t
  | .leaf s => rfl
  | .arr es c1 c2 => ⟨rfl, Elems.Like.refl es, rfl⟩
  | .itab kvs ws => ⟨rfl, Pairs.Like.refl kvs _⟩
theorem Elems.Like.refl : ∀ (t : Elems), t.Like t
  | .nil => trivial
  | .cons v sep cn r => ⟨VT.Like.refl v, rfl, rfl, Elems.Like.refl r⟩
theorem Pairs.Like.refl : ∀ (t : Pairs) (w : Str), t.Like w t w
  | .nil, _ => rfl
  | .cons k ws v sep cn r, w => ⟨rfl, rfl, VT.Like.refl v, rfl, .inl ⟨rfl, Pairs.Like.refl r w⟩⟩
end

/-- What two trees alike have in common. -/
structure Common (t t' : VT) : Prop where
  text : t.text = t'.text
  value : t.value = t'.value
  kind : t.kind = t'.kind
  sound : t.sound = t'.sound
  children : t.children = t'.children

mutual
theorem VT.Like.common : ∀ {t t' : VT}, t.Like t' → Common t t'
  | .leaf s, .leaf s', h => by cases h; exact ⟨rfl, rfl, rfl, rfl, rfl⟩
  | .arr es c1 c2, .arr es' c1' c2', ⟨h1, h2, h3⟩ => by
    obtain ⟨g1, g2, g3, g4⟩ := Elems.Like.common h2
    exact ⟨by simp [VT.text, h1, h3, g1], by simp [VT.value, g2], rfl, by simp [VT.sound, g3, g4], by simp [VT.children, g3]⟩
  | .itab kvs ws, .itab kvs' ws', ⟨h1, h2⟩ => by
    obtain ⟨g1, g2, g3, g4⟩ := Pairs.Like.common h2
    exact ⟨by simp [VT.text, h1, g1], by simp [VT.value, g2], rfl, by simp [VT.sound, g4], by simp [VT.children, g3]⟩
theorem Elems.Like.common : ∀ {t t' : Elems}, t.Like t' → t.text = t'.text ∧ t.values = t'.values ∧ t.kinds = t'.kinds ∧ t.sound = t'.sound
  | .nil, .nil, _ => ⟨rfl, rfl, rfl, rfl⟩
  | .cons v sep cn r, .cons v' sep' cn' r', ⟨h1, h2, h3, h4⟩ => by
    obtain ⟨a1, a2, a3, a4, a5⟩ := VT.Like.common h1
    obtain ⟨g1, g2, g3, g4⟩ := Elems.Like.common h4
    exact ⟨by simp [Elems.text, h2, h3, g1, a1], by simp [Elems.values, g2, a2], by simp [Elems.kinds, a3, g3], by simp [Elems.sound, a4, g4]⟩
theorem Pairs.Like.common : ∀ {t t' : Pairs} {w w' : Str}, t.Like w t' w' → t.text ++ w = t'.text ++ w' ∧ t.values = t'.values ∧ t.keys = t'.keys ∧ t.sound = t'.sound
  | .nil, .nil, w, w', h => by cases h; exact ⟨rfl, rfl, rfl, rfl⟩
  | .cons k ws v sep cn r, .cons k' ws' v' sep' cn' r', w, w', ⟨h1, h2, h3, h4, h5⟩ => by
    obtain ⟨a1, a2, a3, a4, a5⟩ := VT.Like.common h3
    subst h1 h2 h4
    rcases h5 with ⟨h5, h6⟩ | ⟨rfl, rfl, h6⟩
    · obtain ⟨g1, g2, g3, g4⟩ := Pairs.Like.common h6
      exact ⟨by simp [Pairs.text, h5, g1, a1], by simp [Pairs.values, g2, a2], by simp [Pairs.keys, g3], by simp [Pairs.sound, a4, g3, g4]⟩
    · exact ⟨by simp [Pairs.text, h6, a1], by simp [Pairs.values, a2], by simp [Pairs.keys], by simp [Pairs.sound, a4]⟩
end

/-- Two optional trees alike. -/
def LikeOpt : Option VT → Option VT → Prop
  | none, none => True
  | some t, some t' => t.Like t'
  | _, _ => False

mutual
theorem VT.Like.part : ∀ {t t' : VT} (q : List Key), t.Like t' → LikeOpt (t.part q) (t'.part q)
  | t, t', [], h => by rw [VT.part_nil, VT.part_nil]; exact h
  | .leaf s, .leaf s', k :: q, h => by cases h; cases k <;> trivial
  | .arr es c1 c2, .arr es' c1' c2', .idx i :: q, ⟨_, h2, _⟩ => Elems.Like.part i q h2
  | .arr es c1 c2, .arr es' c1' c2', .str i :: q, _ => trivial
  | .itab kvs ws, .itab kvs' ws', .idx i :: q, _ => trivial
  | .itab kvs ws, .itab kvs' ws', .str i :: q, ⟨_, h2⟩ => Pairs.Like.part i q h2
theorem Elems.Like.part : ∀ {t t' : Elems} (i : Nat) (q : List Key), t.Like t' → LikeOpt (t.part i q) (t'.part i q)
  | .nil, .nil, _, _, _ => trivial
  | .cons v sep cn r, .cons v' sep' cn' r', 0, q, h => VT.Like.part q h.1
  | .cons v sep cn r, .cons v' sep' cn' r', i + 1, q, h => Elems.Like.part i q h.2.2.2
theorem Pairs.Like.part : ∀ {t t' : Pairs} {w w' : Str} (k : Str) (q : List Key), t.Like w t' w' → LikeOpt (t.part k q) (t'.part k q)
  | .nil, .nil, _, _, _, _, _ => trivial
  | .cons k ws v sep cn r, .cons k' ws' v' sep' cn' r', w, w', n, q, ⟨h1, h2, h3, h4, h5⟩ => by
    subst h1
    rw [Pairs.part, Pairs.part]
    split
    · exact VT.Like.part q h3
    · rcases h5 with ⟨h5, h6⟩ | ⟨rfl, rfl, h6⟩
      · exact Pairs.Like.part n q h6
      · trivial
end

mutual
theorem VT.Like.put {x x' : VT} (hx : x.Like x') : ∀ {t t' : VT} (q : List Key), t.Like t' → (t.put q x).Like (t'.put q x')
  | t, t', [], h => by rw [VT.put_nil, VT.put_nil]; exact hx
  | .leaf s, .leaf s', k :: q, h => by cases k <;> exact h
  | .arr es c1 c2, .arr es' c1' c2', .idx i :: q, ⟨h1, h2, h3⟩ => ⟨h1, Elems.Like.put hx i q h2, h3⟩
  | .arr es c1 c2, .arr es' c1' c2', .str i :: q, h => h
  | .itab kvs ws, .itab kvs' ws', .idx i :: q, h => h
  | .itab kvs ws, .itab kvs' ws', .str i :: q, ⟨h1, h2⟩ => ⟨h1, Pairs.Like.put hx i q h2⟩
theorem Elems.Like.put {x x' : VT} (hx : x.Like x') : ∀ {t t' : Elems} (i : Nat) (q : List Key), t.Like t' → (t.put i q x).Like (t'.put i q x')
  | .nil, .nil, _, _, _ => trivial
  | .cons v sep cn r, .cons v' sep' cn' r', 0, q, h => ⟨VT.Like.put hx q h.1, h.2⟩
  | .cons v sep cn r, .cons v' sep' cn' r', i + 1, q, h => ⟨h.1, h.2.1, h.2.2.1, Elems.Like.put hx i q h.2.2.2⟩
theorem Pairs.Like.put {x x' : VT} (hx : x.Like x') : ∀ {t t' : Pairs} {w w' : Str} (k : Str) (q : List Key), t.Like w t' w' → (t.put k q x).Like w (t'.put k q x') w'
  | .nil, .nil, _, _, _, _, h => h
  | .cons k ws v sep cn r, .cons k' ws' v' sep' cn' r', w, w', n, q, ⟨h1, h2, h3, h4, h5⟩ => by
    subst h1
    rw [Pairs.put, Pairs.put]
    split
    · exact ⟨rfl, h2, VT.Like.put hx q h3, h4, h5⟩
    · rcases h5 with ⟨h5, h6⟩ | ⟨rfl, rfl, h6⟩
      · exact ⟨rfl, h2, h3, h4, .inl ⟨h5, Pairs.Like.put hx n q h6⟩⟩
      · exact ⟨rfl, h2, h3, h4, .inr ⟨rfl, rfl, h6⟩⟩
end

mutual
theorem VT.Like.replace : ∀ {t t' : VT} (v : Value), t.Like t' → (t.replace v).Like (t'.replace v)
  | .leaf s, .leaf s', v, h => by cases h; exact VT.Like.refl _
  | .arr es c1 c2, .arr es' c1' c2', v, ⟨h1, h2, h3⟩ => by
    cases v with
    | arr vs => exact ⟨h1, Elems.Like.replace vs h2, h3⟩
    | _ => exact ⟨h1, h2, h3⟩
  | .itab kvs ws, .itab kvs' ws', v, ⟨h1, h2⟩ => by
    cases v with
    | itab vs => exact ⟨h1, Pairs.Like.replace vs h2⟩
    | _ => exact ⟨h1, h2⟩
theorem Elems.Like.replace : ∀ {t t' : Elems} (vs : List Value), t.Like t' → (t.replace vs).Like (t'.replace vs)
  | .nil, .nil, [], _ => trivial
  | .nil, .nil, _ :: _, _ => trivial
  | .cons v sep cn r, .cons v' sep' cn' r', [], h => h
  | .cons v sep cn r, .cons v' sep' cn' r', x :: vs, h => ⟨VT.Like.replace x h.1, h.2.1, h.2.2.1, Elems.Like.replace vs h.2.2.2⟩
theorem Pairs.Like.replace : ∀ {t t' : Pairs} {w w' : Str} (vs : List (Str × Value)), t.Like w t' w' → (t.replace vs).Like w (t'.replace vs) w'
  | .nil, .nil, _, _, [], h => h
  | .nil, .nil, _, _, _ :: _, h => h
  | .cons k ws v sep cn r, .cons k' ws' v' sep' cn' r', w, w', [], h => h
  | .cons k ws v sep cn r, .cons k' ws' v' sep' cn' r', w, w', (n, x) :: vs, ⟨h1, h2, h3, h4, h5⟩ => by
    refine ⟨h1, h2, VT.Like.replace x h3, h4, ?_⟩
    rcases h5 with ⟨h5, h6⟩ | ⟨rfl, rfl, h6⟩
    · exact .inl ⟨h5, Pairs.Like.replace vs h6⟩
    · exact .inr ⟨by cases vs <;> rfl, by cases vs <;> rfl, h6⟩
end

/-! ## Properly written parts -/

mutual
theorem VT.strict.part : ∀ {t : VT} (q : List Key) {x : VT}, t.strict → t.part q = some x → x.strict
  | t, [], x, h, e => by rw [VT.part_nil] at e; cases e; exact h
  | .leaf s, k :: q, x, h, e => by cases k <;> simp [VT.part] at e
  | .arr es c1 c2, .idx i :: q, x, h, e => Elems.strict.part i q h.2.1 e
  | .arr es c1 c2, .str i :: q, x, h, e => by simp [VT.part] at e
  | .itab kvs ws, .idx i :: q, x, h, e => by simp [VT.part] at e
  | .itab kvs ws, .str i :: q, x, h, e => Pairs.strict.part i q h.2.1 e
theorem Elems.strict.part : ∀ {t : Elems} (i : Nat) (q : List Key) {x : VT}, t.strict → t.part i q = some x → x.strict
  | .nil, _, _, x, h, e => by simp [Elems.part] at e
  | .cons v sep cn r, 0, q, x, h, e => VT.strict.part q h.1 e
  | .cons v sep cn r, i + 1, q, x, h, e => Elems.strict.part i q h.2.2.2 e
theorem Pairs.strict.part : ∀ {t : Pairs} (k : Str) (q : List Key) {x : VT}, t.strict → t.part k q = some x → x.strict
  | .nil, _, _, x, h, e => by simp [Pairs.part] at e
  | .cons k ws v sep cn r, n, q, x, h, e => by
    rw [Pairs.part] at e
    split at e
    · exact VT.strict.part q h.2.2.1 e
    · exact Pairs.strict.part n q h.2.2.2.2.2 e
end

theorem Elems.put_nil_iff {t : Elems} {i : Nat} {q : List Key} {x : VT} : t.put i q x = .nil ↔ t = .nil := by
  cases t <;> cases i <;> simp [Elems.put]

theorem Pairs.put_nil_iff {t : Pairs} {k : Str} {q : List Key} {x : VT} : t.put k q x = .nil ↔ t = .nil := by
  cases t with
  | nil => simp [Pairs.put]
  | cons k' ws v sep cn r => rw [Pairs.put]; split <;> simp

mutual
theorem VT.strict.put {x : VT} (hx : x.strict) : ∀ {t : VT} (q : List Key), t.strict → (t.put q x).strict
  | t, [], h => by rw [VT.put_nil]; exact hx
  | .leaf s, k :: q, h => by cases k <;> exact h
  | .arr es c1 c2, .idx i :: q, h => ⟨h.1, Elems.strict.put hx i q h.2.1, h.2.2⟩
  | .arr es c1 c2, .str i :: q, h => h
  | .itab kvs ws, .idx i :: q, h => h
  | .itab kvs ws, .str i :: q, h => ⟨h.1, Pairs.strict.put hx i q h.2.1, h.2.2⟩
theorem Elems.strict.put {x : VT} (hx : x.strict) : ∀ {t : Elems} (i : Nat) (q : List Key), t.strict → (t.put i q x).strict
  | .nil, _, _, h => trivial
  | .cons v sep cn r, 0, q, h => ⟨VT.strict.put hx q h.1, h.2⟩
  | .cons v sep cn r, i + 1, q, h => ⟨h.1, h.2.1, fun hn => h.2.2.1 fun e => hn (Elems.put_nil_iff.mpr e), Elems.strict.put hx i q h.2.2.2⟩
theorem Pairs.strict.put {x : VT} (hx : x.strict) : ∀ {t : Pairs} (k : Str) (q : List Key), t.strict → (t.put k q x).strict
  | .nil, _, _, h => trivial
  | .cons k ws v sep cn r, n, q, h => by
    rw [Pairs.put]
    split
    · exact ⟨h.1, h.2.1, VT.strict.put hx q h.2.2.1, h.2.2.2⟩
    · exact ⟨h.1, h.2.1, h.2.2.1, h.2.2.2.1, fun hn => h.2.2.2.2.1 fun e => hn (Pairs.put_nil_iff.mpr e), Pairs.strict.put hx n q h.2.2.2.2.2⟩
end

theorem Elems.replace_nil_iff {t : Elems} {vs : List Value} : t.replace vs = .nil ↔ t = .nil := by
  cases t <;> cases vs <;> simp [Elems.replace]

theorem Pairs.replace_nil_iff {t : Pairs} {vs : List (Str × Value)} : t.replace vs = .nil ↔ t = .nil := by
  cases t <;> cases vs <;> simp [Pairs.replace]

mutual
theorem VT.strict.replace : ∀ {t : VT} (v : Value), t.strict → v.written → (t.replace v).strict
  | .leaf s, v, h, hw => by
    rw [VT.replace]
    split
    next s' hs => exact (written_scalar hw hs).1
    · exact h
  | .arr es c1 c2, v, h, hw => by
    cases v with
    | arr vs => exact ⟨h.1, Elems.strict.replace vs h.2.1 hw, h.2.2⟩
    | _ => exact h
  | .itab kvs ws, v, h, hw => by
    cases v with
    | itab vs => exact ⟨h.1, Pairs.strict.replace vs h.2.1 hw, h.2.2⟩
    | _ => exact h
theorem Elems.strict.replace : ∀ {t : Elems} (vs : List Value), t.strict → writtenAll vs → (t.replace vs).strict
  | .nil, [], h, _ => trivial
  | .nil, _ :: _, h, _ => trivial
  | .cons v sep cn r, [], h, _ => h
  | .cons v sep cn r, x :: vs, h, hw => ⟨VT.strict.replace x h.1 hw.1, h.2.1, fun hn => h.2.2.1 fun e => hn (Elems.replace_nil_iff.mpr e), Elems.strict.replace vs h.2.2.2 hw.2⟩
theorem Pairs.strict.replace : ∀ {t : Pairs} (vs : List (Str × Value)), t.strict → writtenKVs vs → (t.replace vs).strict
  | .nil, [], h, _ => trivial
  | .nil, _ :: _, h, _ => trivial
  | .cons k ws v sep cn r, [], h, _ => h
  | .cons k ws v sep cn r, (n, x) :: vs, h, hw =>
    ⟨h.1, h.2.1, VT.strict.replace x h.2.2.1 hw.1, h.2.2.2.1, fun hn => h.2.2.2.2.1 fun e => hn (Pairs.replace_nil_iff.mpr e), Pairs.strict.replace vs h.2.2.2.2.2 hw.2⟩
end

/-! ## Values written afresh -/

mutual
/-- The keys of the inline tables in a value are keys, and there is no empty inline table. -/
def Value.keyed : Value → Prop
  | .arr vs => keyedAll vs
  | .itab kvs => kvs ≠ [] ∧ keyedKVs kvs
  | _ => True
def keyedAll : List Value → Prop
  | [] => True
  | v :: vs => v.keyed ∧ keyedAll vs
def keyedKVs : List (Str × Value) → Prop
  | [] => True
  | (k, v) :: vs => KeyWf k ∧ v.keyed ∧ keyedKVs vs
end

theorem apart_nil {b : Bool} : Apart (freshSep b) [.newlines []] := by
  refine ⟨?_, .nil, fun _ => ?_⟩
  · cases b <;> simp [freshSep, SepWf, WSSep.wf, Blank]
  · simp [NoBlank, gapText, CNL.text]

theorem gapText_tidy : gapText [] = gapText [.newlines []] := rfl

mutual
theorem Value.fresh_tidy : ∀ (v : Value), v.written → v.keyed → ∃ t, v.fresh.Like t ∧ t.strict
  | .int s, hw, _ => ⟨_, VT.Like.refl _, hw⟩
  | .float s, hw, _ => ⟨_, VT.Like.refl _, hw⟩
  | .bool s, hw, _ => ⟨_, VT.Like.refl _, trivial⟩
  | .dt s, hw, _ => ⟨_, VT.Like.refl _, hw.1⟩
  | .str s t, hw, _ => ⟨_, VT.Like.refl _, hw⟩
  | .arr vs, hw, hk => by
    obtain ⟨es, h1, h2⟩ := freshElems_tidy vs hw hk
    exact ⟨.arr es [.newlines []] [.newlines []], ⟨gapText_tidy, h1, gapText_tidy⟩, .nil, h2, rfl⟩
  | .itab vs, hw, hk => by
    obtain ⟨es, h1, h2⟩ := freshPairs_tidy vs hw hk.2 hk.1
    exact ⟨.itab es ⟨lit% " ", []⟩, ⟨rfl, h1⟩, by simp [Blank], h2, rfl⟩
theorem freshElems_tidy : ∀ (vs : List Value), writtenAll vs → keyedAll vs → ∃ t, (freshElems vs).Like t ∧ t.strict
  | [], _, _ => ⟨.nil, trivial, trivial⟩
  | v :: vs, hw, hk => by
    obtain ⟨t, h1, h2⟩ := Value.fresh_tidy v hw.1 hk.1
    obtain ⟨r, h3, h4⟩ := freshElems_tidy vs hw.2 hk.2
    refine ⟨.cons t (freshSep vs.isEmpty) [.newlines []] r, ⟨h1, rfl, gapText_tidy, h3⟩, h2, apart_nil, fun hn => .inl ?_, h4⟩
    cases vs with
    | nil => cases r <;> simp [freshElems, Elems.Like] at h3 hn
    | cons => rfl
theorem freshPairs_tidy : ∀ (vs : List (Str × Value)), writtenKVs vs → keyedKVs vs → vs ≠ [] → ∃ t, (freshPairs vs).Like (lit% " ") t [] ∧ t.strict
  | [], _, _, hn => absurd rfl hn
  | [(k, v)], hw, hk, _ => by
    obtain ⟨t, h1, h2⟩ := Value.fresh_tidy v hw.1 hk.2.1
    refine ⟨.cons k ⟨lit% " ", lit% " "⟩ t none [.newlines (lit% " ")] .nil, ⟨rfl, rfl, h1, rfl, .inr ⟨rfl, rfl, rfl⟩⟩, hk.1, by simp [WSSep.wf, Blank], h2, ?_, by simp, trivial⟩
    exact ⟨by simp [SepWf], Pieces.one SpacePiece.blank, by simp⟩
  | (k, v) :: x :: vs, hw, hk, _ => by
    obtain ⟨t, h1, h2⟩ := Value.fresh_tidy v hw.1 hk.2.1
    obtain ⟨r, h3, h4⟩ := freshPairs_tidy (x :: vs) hw.2 hk.2.2 (by simp)
    exact ⟨.cons k ⟨lit% " ", lit% " "⟩ t (freshSep false) [.newlines []] r, ⟨rfl, rfl, h1, rfl, .inl ⟨gapText_tidy, h3⟩⟩, hk.1, by simp [WSSep.wf, Blank], h2, apart_nil,
      fun _ => .inl rfl, h4⟩
end

end Tomllib
