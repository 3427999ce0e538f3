import Verif.Spec.Layout
/-!
# The program prints the parts of a document as the specification says
-/

namespace Tomllib

theorem OffsetAmount.disp_eq (o : OffsetAmount) : o.disp = o.text := by
  cases o with
  | mk p h m => cases p <;> rfl

theorem TimeOffset.disp_eq (o : TimeOffset) : o.disp = o.text := by
  cases o with
  | zulu => rfl
  | time o => exact o.disp_eq

theorem Time.disp_eq (t : Time) : t.disp = t.text := by
  unfold Time.disp Time.text
  cases t.fraction <;> cases t.offset <;> simp [fracText, offText, TimeOffset.disp_eq]

@[simp] theorem DateTime.disp_eq (d : DateTime) : d.disp = d.text := by
  unfold DateTime.disp DateTime.text
  cases d.time with
  | none => simp [Date.disp, Date.text]
  | some t => simp [Date.disp, Date.text, Time.disp_eq]

@[simp] theorem boolStr_eq (b : Bool) : boolStr b = boolText b := by cases b <;> rfl

@[simp] theorem StrType.quote_eq (t : StrType) (s : Str) : t.quote s = t.quoted s := by cases t <;> rfl

@[simp] theorem commentStr_eq (s : Str) : commentStr s = remark s := rfl

theorem CNL.disp_eq (c : CNL) : c.disp = c.text := by cases c <;> rfl

@[simp] theorem cnlsStr_eq : ∀ cs : List CNL, cnlsStr cs = gapText cs
  | [] => rfl
  | c :: cs => by rw [cnlsStr, gapText, cnlsStr_eq cs, CNL.disp_eq]

@[simp] theorem sepStr_eq (s : Option WSSep) : sepStr s = commaText s := by cases s <;> rfl

theorem subkeysStr_eq : ∀ ks : List WSKeySep, subkeysStr ks = subkeysText ks
  | [] => rfl
  | k :: ks => by rw [subkeysStr, subkeysText, subkeysStr_eq ks]; rfl

theorem Table.disp_eq (t : Table) : t.disp = t.text := by
  obtain ⟨ks⟩ := t
  cases ks with
  | nil => rfl
  | cons k ks => simp [Table.disp, Table.text, subkeysStr_eq]

@[simp] theorem TableType.disp_eq (t : TableType) : t.disp = t.text := by
  cases t <;> simp [TableType.disp, TableType.text, Table.disp_eq]

end Tomllib
