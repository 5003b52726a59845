import Verif.SpecGenerate
/-!
# Constraints of one element
-/
namespace Verif

open Spec

theorem inSet_one {ν : List (String × Ty × Val)} {e : Verif.Elem} (z : Int) : InSet ν [[e]] z ↔ InElem ν e z := by
  constructor
  · rintro ⟨i, hi, _, h⟩
    rw [List.mem_singleton] at hi
    subst hi
    exact h e (by simp)
  · intro h
    exact ⟨[e], by simp, by simp, by simpa using h⟩

theorem endIs_same {ν : List (String × Ty × Val)} {e : End} {a b : Int} (h : EndIs ν e a) (h' : EndIs ν e b) : a = b := by
  cases h with
  | num => cases h'; rfl
  | ref h =>
    cases h' with
    | ref h' => rw [h] at h'; injection h' with h'; injection h' with _ h'; injection h'

theorem endIs_special {ν : List (String × Ty × Val)} {e : End} {a : Int} (h : EndIs ν e a) : e ≠ .min ∧ e ≠ .max := by
  cases h <;> simp

theorem inSet_range {ν : List (String × Ty × Val)} {lo hi : End} {a b : Int} (ha : EndIs ν lo a) (hb : EndIs ν hi b)
    (z : Int) : InSet ν [[.range lo false hi false]] z ↔ a ≤ z ∧ z ≤ b := by
  rw [inSet_one]
  constructor
  · rintro ⟨h1, h2⟩
    constructor
    · rcases h1 with h | ⟨a', ha', h⟩
      · exact absurd h (endIs_special ha).1
      · rw [endIs_same ha ha']; simpa using h
    · rcases h2 with h | ⟨b', hb', h⟩
      · exact absurd h (endIs_special hb).2
      · rw [endIs_same hb hb']; simpa using h
  · rintro ⟨h1, h2⟩
    exact ⟨.inr ⟨a, ha, by simpa using h1⟩, .inr ⟨b, hb, by simpa using h2⟩⟩

theorem hull_interval {S : Int → Prop} {a b : Int} (h : a ≤ b) (hS : ∀ z, S z ↔ a ≤ z ∧ z ≤ b) :
    Hull S (some a) (some b) :=
  ⟨⟨a, (hS a).2 ⟨by omega, h⟩⟩, ⟨(hS a).2 ⟨by omega, h⟩, fun z hz => ((hS z).1 hz).1⟩,
    (hS b).2 ⟨h, by omega⟩, fun z hz => ((hS z).1 hz).2⟩

theorem rangeOf_one {ν : List (String × Ty × Val)} {lo hi : End} {a b : Int} (m : Bool) (ha : EndIs ν lo a)
    (hb : EndIs ν hi b) (h : a ≤ b) : RangeOf ν ⟨[[.range lo false hi false]], m, []⟩ (some a) (some b) m :=
  ⟨hull_interval h (inSet_range ha hb), rfl⟩

theorem ascending_one {ν : List (String × Ty × Val)} {lo hi : End} {a b : Int} (m : Bool) (ha : EndIs ν lo a)
    (hb : EndIs ν hi b) (h : a ≤ b) (hn : ∀ s, lo = .ref s ∨ hi = .ref s → '-' ∉ s.toList) :
    Ascending ν ⟨[[.range lo false hi false]], m, []⟩ := by
  refine ⟨⟨[.range lo false hi false], rfl, ?_, _, _, rfl, rfl, ?_, hn⟩, rfl⟩
  · intro e he
    rw [List.mem_singleton] at he
    subst he
    exact ⟨⟨rfl, rfl⟩, a, .inr ⟨a, ha, by simp⟩, .inr ⟨b, hb, by simpa using h⟩⟩
  · intro z hz
    exact (inSet_one z).1 hz

theorem sizeOf_one {ν : List (String × Ty × Val)} {lo hi : End} {a b : Nat} (m outer : Bool) (ha : EndIs ν lo a)
    (hb : EndIs ν hi b) (h : a ≤ b) :
    SizeOf ν (.size ⟨[[.range lo false hi false]], m, []⟩ outer) ⟨m || outer, some a, some b⟩ := by
  refine ⟨_, _, rfl, rfl, hull_interval (by simpa using h) fun z => ?_⟩
  rw [inSet_range ha hb]
  constructor
  · exact fun h => h.2
  · exact fun h => ⟨Int.le_trans (Int.natCast_nonneg a) h.1, h⟩

theorem ascendingSize_one {ν : List (String × Ty × Val)} {lo hi : End} {a b : Nat} (m : Bool) (ha : EndIs ν lo a)
    (hb : EndIs ν hi b) (h : a ≤ b) (hn : ∀ s, lo = .ref s ∨ hi = .ref s → '-' ∉ s.toList) :
    AscendingSize ν (.size ⟨[[.range lo false hi false]], m, []⟩ false) := by
  refine ⟨ascending_one m ha hb (by simpa using h) hn, rfl, ?_⟩
  intro i e hi he
  simp only [List.head?_cons, Option.some.injEq] at hi
  subst hi
  rw [List.mem_singleton] at he
  subst he
  exact ⟨a, by omega, ha⟩

end Verif
