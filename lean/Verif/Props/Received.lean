import Verif.Props.Held
import Verif.Lemmas.LookingFresh
import Verif.Props.Shared
/-!
# Objects that were received and are sent on (C68)
-/
namespace Verif.Props
open Verif Spec Shared

/-- Receiving keeps the restriction of C67 (`light`: DEFAULT with simple types only). -/
theorem received_light {h : Store} {t : Ty} {bs : List UInt8} {v : Val} (w : WellTyped h) (l : light t = true)
    (d : decode t bs = .ok v) : ∃ y h', receive t bs h = (.ok y, h') ∧ WellTyped h' ∧ Holds h' t v y := by
  have b := built (Q := True) t v h (fun _ => l) (C15_conforms_partial d) (typedBy_light.mpr w)
  exact ⟨_, _, by simp only [receive, d], typedBy_light.mp b.ext.typed, b.isA, b.tree⟩

/-- What is assigned is what is sent: a program reads, encodes and shows any of its objects, then assigns an object that holds
a value to a component of another one, and goes on reading, encoding and showing; `encode` of the latter gives the encoding
of the value with the assigned one in its place.

What is missing, here and below: types that are not `quiet` (`Findings.C68_twice`, F92), values that are not `steady` (F35). -/
theorem C68_set_partial {h : Store} {e : Bool} {r a : Fields} {g : Groups} {cs : List (Option Val)} {x y i : Nat} {k : Kind}
    {t : Ty} {v : Val} {before later : List Deed} (w : WellTyped h) (o : Holds h (.sequence e r a g) (.seq cs) x)
    (l : cs.length = r.length + a.length + g.size) (p : partAt r a g i = some (k, t)) (oy : Holds h t v y)
    (al : ∀ d ∈ before ++ later, Allowed h d ∧ d.reads = true ∧ Sends h quiet d) (q : quiet (.sequence e r a g) = true)
    (s : steady (.sequence e r a g) (.seq (cs.set i (some v))) = true) :
    (encodeAt x (doneAll (before ++ .set x i y :: later) h)).1 = encode (.sequence e r a g) (.seq (cs.set i (some v))) := by
  have hd : ∀ d ∈ before ++ .set x i y :: later, d = .set x i y ∨ d ∈ before ++ later := by
    intro d m
    simp only [List.mem_append, List.mem_cons] at m ⊢
    rcases m with m | m | m
    · exact .inr (.inl m)
    · exact .inl m
    · exact .inr (.inr m)
  have ag : assignedAll (before ++ .set x i y :: later) h = Deed.assigned h (.set x i y) := by
    rw [assignedAll_append, assignedAll_reads before h fun d m => (al d (List.mem_append_left _ m)).2.1]
    exact assignedAll_reads later _ fun d m => (al d (List.mem_append_right _ m)).2.1
  rw [encode_after w (fun d m => ?_) (fun d m => ?_) o.1 q, ag, (holds_set (typed_of w) o l p oy).2]
  · exact (shows_encode s (shows_fresh _ _)).1
  · rcases hd d m with rfl | m
    · exact ⟨e, r, a, g, k, t, o.1, p, oy.1⟩
    · exact (al d m).1
  · rcases hd d m with rfl | m
    · exact fun _ _ e => (nomatch e)
    · exact (al d m).2.2

/-- The same for a SEQUENCE OF. -/
theorem C68_append_partial {h : Store} {c : SizeC} {t : Ty} {vs : List Val} {x y : Nat} {v : Val} {before later : List Deed}
    (w : WellTyped h) (o : Holds h (.seqOf c t) (.seqOf vs) x) (oy : Holds h t v y)
    (al : ∀ d ∈ before ++ later, Allowed h d ∧ d.reads = true ∧ Sends h quiet d) (q : quiet (.seqOf c t) = true)
    (s : steady (.seqOf c t) (.seqOf (vs ++ [v])) = true) :
    (encodeAt x (doneAll (before ++ .append x y :: later) h)).1 = encode (.seqOf c t) (.seqOf (vs ++ [v])) := by
  have hd : ∀ d ∈ before ++ .append x y :: later, d = .append x y ∨ d ∈ before ++ later := by
    intro d m
    simp only [List.mem_append, List.mem_cons] at m ⊢
    rcases m with m | m | m
    · exact .inr (.inl m)
    · exact .inl m
    · exact .inr (.inr m)
  have ag : assignedAll (before ++ .append x y :: later) h = Deed.assigned h (.append x y) := by
    rw [assignedAll_append, assignedAll_reads before h fun d m => (al d (List.mem_append_left _ m)).2.1]
    exact assignedAll_reads later _ fun d m => (al d (List.mem_append_right _ m)).2.1
  rw [encode_after w (fun d m => ?_) (fun d m => ?_) o.1 q, ag, (holds_append (typed_of w) o oy).2]
  · exact (shows_encode s (shows_fresh _ _)).1
  · rcases hd d m with rfl | m
    · exact ⟨c, t, o.1, oy.1⟩
    · exact (al d m).1
  · rcases hd d m with rfl | m
    · exact fun _ _ e => (nomatch e)
    · exact (al d m).2.2

/-- The same for a CHOICE, whatever it held before. -/
theorem C68_choose_partial {h : Store} {e : Bool} {r a : Fields} {g : Groups} {x y pos : Nat} {k : Kind} {t : Ty} {v : Val}
    {before later : List Deed} (w : WellTyped h) (ix : IsA h (.choice e r a g) x) (p : partAt r a g pos = some (k, t))
    (oy : Holds h t v y) (al : ∀ d ∈ before ++ later, Allowed h d ∧ d.reads = true ∧ Sends h quiet d)
    (q : quiet (.choice e r a g) = true) (s : steady (.choice e r a g) (.choice pos v) = true) :
    (encodeAt x (doneAll (before ++ .choose x pos y :: later) h)).1 = encode (.choice e r a g) (.choice pos v) := by
  have hd : ∀ d ∈ before ++ .choose x pos y :: later, d = .choose x pos y ∨ d ∈ before ++ later := by
    intro d m
    simp only [List.mem_append, List.mem_cons] at m ⊢
    rcases m with m | m | m
    · exact .inr (.inl m)
    · exact .inl m
    · exact .inr (.inr m)
  have ag : assignedAll (before ++ .choose x pos y :: later) h = Deed.assigned h (.choose x pos y) := by
    rw [assignedAll_append, assignedAll_reads before h fun d m => (al d (List.mem_append_left _ m)).2.1]
    exact assignedAll_reads later _ fun d m => (al d (List.mem_append_right _ m)).2.1
  rw [encode_after w (fun d m => ?_) (fun d m => ?_) ix q, ag, (holds_choose (typed_of w) ix p oy).2]
  · exact (shows_encode s (shows_fresh _ _)).1
  · rcases hd d m with rfl | m
    · exact ⟨e, r, a, g, k, t, ix, p, oy.1⟩
    · exact (al d m).1
  · rcases hd d m with rfl | m
    · exact fun _ _ e => (nomatch e)
    · exact (al d m).2.2

/-- What was received is sent on as the value that was decoded, also after the program read, encoded and showed its objects. -/
theorem C68_forward_partial {h h' : Store} {t : Ty} {bs : List UInt8} {v : Val} {y : Nat} {before : List Deed} (w : WellTyped h)
    (l : light t = true) (d : decode t bs = .ok v) (r : receive t bs h = (.ok y, h'))
    (al : ∀ d ∈ before, Allowed h' d ∧ d.reads = true ∧ Sends h' quiet d) (q : quiet t = true) (s : steady t v = true) :
    (encodeAt y (doneAll before h')).1 = encode t v := by
  obtain ⟨y', k, e, w', o⟩ := received_light w l d
  rw [r] at e
  cases e
  rw [encode_after w' (fun d m => (al d m).1) (fun d m => (al d m).2.2) o.1 q,
    assignedAll_reads before h' fun d m => (al d m).2.1, o.2]
  exact (shows_encode s (shows_fresh _ _)).1

/-- From one program to another: a message is received, put into an object the program had before, and that is sent; the other
program, whatever its objects, has then a new object that holds the value with what was received first in its place. -/
theorem C68_relay_partial {h h' h₂ : Store} {t : Ty} {bs out : List UInt8} {v : Val} {e : Bool} {r a : Fields} {g : Groups}
    {cs : List (Option Val)} {x y i : Nat} {k : Kind} {before later : List Deed} (w : WellTyped h) (w₂ : Typed h₂)
    (o : Holds h (.sequence e r a g) (.seq cs) x) (l : cs.length = r.length + a.length + g.size)
    (p : partAt r a g i = some (k, t)) (lt : light t = true) (d : decode t bs = .ok v) (re : receive t bs h = (.ok y, h'))
    (al : ∀ d ∈ before ++ later, Allowed h' d ∧ d.reads = true ∧ Sends h' quiet d) (q : quiet (.sequence e r a g) = true)
    (s : steady (.sequence e r a g) (.seq (cs.set i (some v))) = true)
    (sa : safe (.sequence e r a g) (.seq (cs.set i (some v))) = true)
    (se : (encodeAt x (doneAll (before ++ .set x i y :: later) h')).1 = .ok out) :
    ∃ z h₃, receive (.sequence e r a g) out h₂ = (.ok z, h₃) ∧
      Holds h₃ (.sequence e r a g) (received (.sequence e r a g) (.seq (cs.set i (some v)))) z := by
  obtain ⟨y', h'', e', w', oy⟩ := received_light w lt d
  rw [re] at e'
  cases e'
  rw [C68_set_partial w' (C69_others (typed_of w) re o) l p oy al q s] at se
  have dec := C10_accepted_partial rfl sa se []
  rw [List.append_nil] at dec
  obtain ⟨z, h₃, e₃, -, o₃⟩ := C69_received w₂ dec
  exact ⟨z, h₃, e₃, o₃⟩

/-- Its dictionary is the one of the value. -/
theorem C68_shown_partial {h h' : Store} {t : Ty} {bs : List UInt8} {v : Val} {y : Nat} (w : WellTyped h)
    (l : light t = true) (d : decode t bs = .ok v) (r : receive t bs h = (.ok y, h')) (q : clear t = true)
    (s : steady t v = true) : (toDictAt y h').1 = toDict t true v := by
  obtain ⟨y', k, e, w', o⟩ := received_light w l d
  rw [r] at e
  cases e
  rw [(sim_toDict w' o.1 q).1, o.2]
  exact dict_fresh t true v s

/-- Receiving a message has no effect on what a program does with its other objects. -/
theorem C68_others_partial {h h' : Store} {t : Ty} {bs : List UInt8} {v : Val} {y : Nat} {l : List Deed} (w : WellTyped h)
    (lt : light t = true) (d : decode t bs = .ok v) (r : receive t bs h = (.ok y, h')) (al : ∀ d ∈ l, Allowed h d) :
    ((∀ d ∈ l, Sends h quiet d) → performed l h' = performed l h) ∧
      ((∀ d ∈ l, Displays h clear d) → displayed l h' = displayed l h) := by
  have b := built (Q := True) t v h (fun _ => lt) (C15_conforms_partial d) (typedBy_light.mpr w)
  simp only [receive, d, Prod.mk.injEq, Except.ok.injEq] at r
  obtain ⟨rfl, rfl⟩ := r
  have w' := typedBy_light.mp b.ext.typed
  obtain ⟨e, q⟩ := b.ext.more
  rw [q] at w' ⊢
  refine ⟨fun se => ?_, fun se => ?_⟩
  · rw [C67_shared_partial w' (fun d m => allowed_append e d (al d m)) (fun d m => sends_append e (al d m) (se d m)),
      envisaged_more e l h w al, C67_shared_partial w al se]
  · rw [C67_dict_partial w' (fun d m => allowed_append e d (al d m)) (fun d m => displays_append e (al d m) (se d m)),
      pictured_more e l h w al, C67_dict_partial w al se]

/-! ## Examples -/

/-- The message `SEQUENCE { y TRUE, z FALSE }`. -/
def receivedBits : List UInt8 := [0xC0]

def receivedVal : Val := .seq [some (.bool true), some (.bool false)]

example : decode lookInner receivedBits = .ok receivedVal ∧ light lookInner = true ∧ quiet lookInner = true ∧
    clear lookInner = true ∧ steady lookInner receivedVal = true := by
  refine ⟨?_, ?_, ?_, ?_, ?_⟩ <;> decide +kernel

/-- A message that is too short. -/
example : decode lookInner [] = .error .valueError := by decide +kernel

/-- It is received at 8 in the program of `sharedStore`. -/
example : (receive lookInner receivedBits sharedStore).1 = .ok 8 := by decide +kernel

/-- The objects after it was received. -/
def receivedStore : Store := (receive lookInner receivedBits sharedStore).2

theorem receivedStore_holds : WellTyped receivedStore ∧ Holds receivedStore lookInner receivedVal 8 := by
  obtain ⟨y, h', e, w, o⟩ := received_light (bs := receivedBits) (v := receivedVal) (t := lookInner) sharedStore_typed rfl
    (by decide +kernel)
  have : receivedStore = h' := by rw [receivedStore, e]
  rw [this]
  have y8 : (receive lookInner receivedBits sharedStore).1 = .ok 8 := by decide +kernel
  rw [e] at y8
  cases y8
  exact ⟨w, o⟩

/-- It is assigned to `b` of the object at 3. -/
example : Holds receivedStore sharedType
      (.seq [some (.seq [some (.bool true), none]), some (.seq [some (.bool true), none]),
        some (.seqOf [.seq [some (.bool true), none], .seq [some (.bool true), none]])]) 3 ∧
    steady sharedType (.seq ([some (.seq [some (.bool true), none]), some (.seq [some (.bool true), none]),
        some (.seqOf [.seq [some (.bool true), none], .seq [some (.bool true), none]])].set 1 (some receivedVal))) = true ∧
    (∀ d ∈ ([.dict 3, .encode 8] ++ [.look 3 [1], .encode 3] : List Deed),
      Allowed receivedStore d ∧ d.reads = true ∧ Sends receivedStore quiet d) := by
  refine ⟨⟨rfl, rfl⟩, rfl, ?_⟩
  simp only [List.cons_append, List.nil_append, List.mem_cons, List.not_mem_nil, or_false]
  rintro d (rfl | rfl | rfl | rfl)
  · exact ⟨⟨sharedType, rfl⟩, rfl, fun _ _ e => (nomatch e)⟩
  · exact ⟨⟨lookInner, rfl⟩, rfl, fun x t e i => by cases e; cases i; rfl⟩
  · exact ⟨⟨sharedType, rfl⟩, rfl, fun _ _ e => (nomatch e)⟩
  · exact ⟨⟨sharedType, rfl⟩, rfl, fun x t e i => by cases e; cases i; rfl⟩

/-- The hypotheses of `C68_relay_partial` for it. -/
example : safe sharedType (.seq ([some (.seq [some (.bool true), none]), some (.seq [some (.bool true), none]),
        some (.seqOf [.seq [some (.bool true), none], .seq [some (.bool true), none]])].set 1 (some receivedVal))) = true ∧
    (encodeAt 3 (doneAll ([.dict 3, .encode 8] ++ .set 3 1 8 :: [.look 3 [1], .encode 3]) receivedStore)).1 =
      .ok [0xB8, 0x02, 0x50] := by
  refine ⟨?_, ?_⟩ <;> decide +kernel

example : performed [.dict 3, .encode 8, .set 3 1 8, .look 3 [1], .encode 3, .append 2 8, .encode 3] receivedStore =
    [.ok [0xC0], .ok [0xB8, 0x02, 0x50], .ok [0xB8, 0x03, 0x5C]] := by decide +kernel

end Verif.Props
