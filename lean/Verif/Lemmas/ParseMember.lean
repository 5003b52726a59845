import Verif.Lemmas.ParseList
/-!
# Components and alternatives on lexical items
-/
namespace Verif.Parse
open Verif.Spec

theorem plainCon_eq {c : Con} {t : CTuple} (h : c.tuple = .ok t) : plainCon c = CTuple.con t := by
  simp [plainCon, h, CTuple.con]

/-- A component: name, type, presence. -/
abbrev Comp := String × TObj × Pres

def compItems (c : Comp) : List String := c.1 :: (typeItems c.2.1 ++ presItems c.2.2)
def compToks (c : Comp) : List Tok := [.comp c.1 (plainType c.2.1) c.2.2]
/-- Without the parse action. -/
def namedToks (c : Comp) : List Tok := [.str c.1, .group [.type (plainType c.2.1)]]

/-- The type is read correctly from any text that it is written in. -/
def TypeOk (t : TObj) : Prop :=
  ∀ f n X s, s.length < n → Follow X → Laid (typeItems t ++ X) s →
    ∃ R, Reads (type (f + 2) n) s X [.group [.type (plainType t)]] R

def CompOk (choice : Bool) (c : Comp) : Prop := ValueName c.1 ∧ TypeOk c.2.1 ∧ WritablePres choice c.2.2

section
variable {f n : Nat} {X : List String} {s : List Char}

theorem named_reads {id : String} {t : TObj} (hid : ValueName id) (ht : TypeOk t) (hs : s.length < n) (hX : Follow X)
    (h : Laid (id :: (typeItems t ++ X)) s) :
    ∃ R, Reads (namedType (type (f + 2) n)) s X [.str id, .group [.type (plainType t)]] R := by
  have h1 := ident_reads h hid
  have l1 := h1.less
  obtain ⟨R, h2⟩ := ht f n X _ (by omega) hX h1.laid
  exact ⟨R, h1.seq h2⟩

theorem component_reads {c : Comp} (hc : CompOk false c) :
    Member (componentType (type (f + 2) n) (value (f + 2))) compItems compToks n c := by
  obtain ⟨id, t, p⟩ := c
  obtain ⟨hid, ht, hp⟩ := hc
  intro s X hs hX h
  have h : Laid (id :: ((typeItems t ++ presItems p) ++ X)) s := h
  rw [List.append_assoc] at h
  cases p with
  | mandatory =>
    obtain ⟨R, h1⟩ := named_reads (f := f) hid ht hs hX.follow h
    have r1 : Rejects (lit "OPTIONAL") R := rejects_avoid h1.laid hX.avoids
    have r2 : Rejects (lit "DEFAULT") R := rejects_avoid h1.laid hX.avoids
    refine ⟨R, h1.laid, h1.less, act_yields (or_yields (.here h1.yields (rest_cons (.inl (seq_rejects' h1.yields r1).loses.ties)
      (rest_cons (.inl (seq_rejects' h1.yields (seq_rejects r2)).loses.ties) rest_nil)))) ?_⟩
    simp [parseComponentType, typeIn, compToks, bind, Except.bind, pure, Except.pure]
  | optional =>
    have h : Laid (id :: (typeItems t ++ "OPTIONAL" :: X)) s := h
    obtain ⟨R, h1⟩ := named_reads (f := f) hid ht hs (show Follow ("OPTIONAL" :: X) from rfl) h
    have h2 := lit_reads h1.laid
    have l2 := h2.less
    have h3 := h1.seq h2
    have r2 : Rejects (lit "DEFAULT") R := rejects_at h1.laid
    refine ⟨_, h3.laid, h3.less, act_yields (or_yields (.there (h1.yields.loses l2) (.here h3.yields
      (rest_cons (.inl (seq_rejects' h1.yields (seq_rejects r2)).loses.ties) rest_nil)))) ?_⟩
    simp [parseComponentType, typeIn, compToks, bind, Except.bind, pure, Except.pure]
  | default l =>
    have h : Laid (id :: (typeItems t ++ "DEFAULT" :: (litItems l ++ X))) s := h
    obtain ⟨R, h1⟩ := named_reads (f := f) hid ht hs (show Follow ("DEFAULT" :: (litItems l ++ X)) from rfl) h
    have h2 := lit_reads h1.laid
    have l2 := h2.less
    obtain ⟨R2, h3⟩ := lit_value (n := f + 1) h2.laid hp.2 hX.avoids
    have l3 := h3.less
    have h4 := h1.seqs (h2.seqs (ps := []) h3)
    have r2 : Rejects (lit "OPTIONAL") R := rejects_at h1.laid
    refine ⟨_, h4.laid, h4.less, act_yields (or_yields (.there (h1.yields.loses (by omega)) (.there
      (seq_rejects' h1.yields r2).loses (.here h4.yields rest_nil)))) ?_⟩
    simp [parseComponentType, typeIn, compToks, litOf_text hp.2, bind, Except.bind, pure, Except.pure]

/-- Additions: a component or a group of them. -/
inductive Mem where
  | comp (c : Comp)
  | group (c : Comp) (cs : List Comp)

def memItems : Mem → List String
  | .comp c => compItems c
  | .group c cs => "[[" :: (compItems c ++ (cs.flatMap (fun y => "," :: compItems y) ++ ["]]"]))

def memToks : Mem → List Tok
  | .comp c => compToks c
  | .group c cs => .str "[[" :: ((c :: cs).flatMap compToks ++ [.str "]]"])

def MemOk (choice : Bool) : Mem → Prop
  | .comp c => CompOk choice c
  | .group c cs => ∀ d ∈ c :: cs, CompOk choice d

theorem version_empty {l : String} (hl : Lower l) (h : Laid (l :: X) s) : Yields versionNumber s [] s := by
  have h1 : Rejects (seq number (lit ":")) s := by rej h
  have h2 := empty_yields s
  rw [laid_skip h] at h2
  exact or_yields (.here h2 (rest_cons (.inl h1.loses.ties) rest_nil))

theorem components_reads {c : Comp} {cs : List Comp} (hc : ∀ d ∈ c :: cs, CompOk false d) (hX : Close X)
    (hE : Ended (componentType (type (f + 2) n) (value (f + 2))) X) (hs : s.length < n)
    (h : Laid (compItems c ++ (cs.flatMap (fun y => "," :: compItems y) ++ X)) s) :
    ∃ R, Reads (componentTypeList (type (f + 2) n) (value (f + 2))) s X ((c :: cs).flatMap compToks) R :=
  list_reads (fun d hd => component_reads (hc d hd)) hX hE hs h

theorem addition_reads {m : Mem} (hm : MemOk false m) :
    Member (extensionAddition (type (f + 2) n) (value (f + 2))) memItems memToks n m := by
  intro s X hs hX h
  cases m with
  | comp c =>
    obtain ⟨R, h1⟩ := component_reads (f := f) (n := n) hm s X hs hX h
    have hlo : Lower c.1 := hm.1.1.2
    have h : Laid (c.1 :: ((typeItems c.2.1 ++ presItems c.2.2) ++ X)) s := h
    refine ⟨R, h1.laid, h1.less, or_yields ?_⟩
    have := h1.yields
    pick this at h
  | group c cs =>
    have h : Laid ("[[" :: ((compItems c ++ (cs.flatMap (fun y => "," :: compItems y) ++ ["]]"])) ++ X)) s := h
    simp only [List.append_assoc, List.singleton_append] at h
    have hlo : Lower c.1 := (hm c (by simp)).1.1.2
    have h1 := lit_reads h
    have l1 := h1.less
    have h2 := version_empty hlo h1.laid
    obtain ⟨R, h3⟩ := components_reads (f := f) hm Close.square (ended_of rfl) (n := n) (by omega) h1.laid
    have l3 := h3.less
    have h4 := lit_reads h3.laid
    have l4 := h4.less
    have y := seqs_yields h1.yields (seqs_yields h2 (seqs_yields (ps := []) h3.yields h4.yields))
    have y : Yields (extensionAdditionGroup (type (f + 2) n) (value (f + 2))) s (memToks (.group c cs)) (after "]]" R) := y
    refine ⟨_, h4.laid, by omega, or_yields ?_⟩
    pick y at h

/-! ## tails of component lists -/

section
variable {T V : P} [Tidy T] [Tidy V]

theorem extension_reads (h : Laid ("..." :: X) s) (hX : Close X) :
    Reads (extensionAndException T V) s X [.str "..."] (after "..." s) := by
  have h1 := lit_reads h
  have h2 := exception_empty (T := T) (V := V) h1.laid hX
  exact ⟨h1.laid, h1.less, or_yields (.here h1.yields (rest_cons (.inr (seq_yields h1.yields h2)) rest_nil))⟩

theorem marker_empty (h : Laid ("}" :: X) s) : Yields optionalExtensionMarker s [] s := by
  have h1 : Rejects (seq comma (lit "...")) s := rejects_at h
  have h2 := empty_yields s
  rw [laid_skip h] at h2
  exact or_yields (.there h1.loses (.here h2 rest_nil))

theorem marker_reads (h : Laid ("," :: "..." :: X) s) :
    Reads optionalExtensionMarker s X [.str "..."] (after "..." (after "," s)) := by
  have h1 := comma_reads h
  have h2 := h1.seq (lit_reads h1.laid)
  have h3 := empty_yields s
  rw [laid_skip h] at h3
  exact ⟨h2.laid, h2.less, or_yields (.here h2.yields (rest_cons (.inl (h3.loses h2.less).ties) rest_nil))⟩

end

/-- Behind the additions: the end, or a second marker. -/
def Tail (X : List String) : Prop := ∃ Y, X = "}" :: Y ∨ X = "," :: "..." :: Y

theorem Tail.close (h : Tail X) : Close X := by
  obtain ⟨Y, rfl | rfl⟩ := h
  · exact Close.curly
  · exact Close.comma

theorem Tail.ended {q : P} {F : First} [Tidy q] [Starts q F] (h : Tail X) (hF : F.skips "..." = true := by decide) : Ended q X := by
  obtain ⟨Y, rfl | rfl⟩ := h
  · exact ended_of rfl
  · exact ended_comma hF

/-- `extensionAdditions` and `additionAlternatives` alike. -/
theorem additions_reads {q : P} {F : First} [Tidy q] [Starts q F] {g : Mem → List Tok} {adds : List Mem}
    (H : ∀ m ∈ adds, Member q memItems g n m) (hF : F.skips "..." = true) (hs : s.length < n) (hX : Tail X)
    (h : Laid (adds.flatMap (fun y => "," :: memItems y) ++ X) s) :
    ∃ R, Laid X R ∧ R.length ≤ s.length ∧
      Yields (or [seq comma (or [seq q (many (seq comma q))]), empty]) s (adds.flatMap g) R := by
  have h0 := empty_yields s
  rw [laid_skip h] at h0
  cases adds with
  | nil =>
    have h : Laid X s := h
    have h1 : Rejects (seq comma (or [seq q (many (seq comma q))])) s := by
      obtain ⟨Y, rfl | rfl⟩ := hX
      · exact rejects_at h
      · have h1 := comma_reads h
        exact seq_rejects' h1.yields (or_rejects (by
          simp only [List.mem_cons, List.not_mem_nil, or_false, forall_eq]
          exact seq_rejects (rejects_at h1.laid hF)))
    exact ⟨s, h, Nat.le_refl _, or_yields (.there h1.loses (.here h0 rest_nil))⟩
  | cons x xs =>
    simp only [List.flatMap_cons, List.cons_append, List.append_assoc] at h
    have h1 := comma_reads h
    have l1 := h1.less
    obtain ⟨R, h2⟩ := list_reads H hX.close (hX.ended hF) (by omega) h1.laid
    have h3 := h1.seq h2
    exact ⟨R, h3.laid, Nat.le_of_lt h3.less, or_yields (.here h3.yields (rest_cons (.inl (h0.loses h3.less).ties) rest_nil))⟩

end
end Verif.Parse
