import Verif.Trees.Files

/-!
# C120: saving and loading trees
-/

namespace Verif.Files

variable {M J : Type}

/-! ## Specification -/

/-- What is written for `j` is read as `j`, whatever follows it in the case of `pickle`. -/
structure Codec.Faithful (c : Codec J) (j : J) : Prop where
  json : (c.json j).2 = none ∧ c.unjson (c.json j).1 = .ok j
  pick : ∀ r, c.unpick (c.pick j ++ r) = .ok (j, r)

/-- The known protocols. -/
def Known (protocol : String) : Prop := protocol = "json" ∨ protocol = "pickle"

/-- The data of `m` can be made and give `m'`. -/
def Copies (toJson : M → Except Err J) (fromJson : J → Except Err M) (c : Codec J) (m m' : M) : Prop :=
  ∃ j, toJson m = .ok j ∧ fromJson j = .ok m' ∧ c.Faithful j

/-! ## Lemmas -/

theorem written_ok {stop : Option ℕ} {b : List ℕ} {err : Option Err} (h : (written stop b err).2 = .ok ()) :
    (written stop b err).1 = b := by
  unfold written written.finish at *
  cases stop <;> cases err <;> simp at * <;> grind

theorem put_same (fs : FS) (path : String) (b : List ℕ) : fs.put path b path = some b := by simp [FS.put]

/-! ## Theorems -/

/-- C120: saving a tree to a file succeeds. -/
theorem C120_save (toJson : M → Except Err J) (fromJson : J → Except Err M) (c : Codec J) (fs : FS) (path protocol : String)
    (hp : Known protocol) (m m' : M) (h : Copies toJson fromJson c m m') :
    (saveFile toJson c none fs path protocol m).2 = .ok () := by
  obtain ⟨j, h1, h2, h3⟩ := h
  rcases hp with rfl | rfl
  · simp [saveFile, h1, written, written.finish, h3.json.1]
  · simp [saveFile, h1, written, written.finish]

/-- C120: if saving a tree succeeds, whatever the moment at which the process might have been stopped, loading the file gives
the same tree. -/
theorem C120_load (toJson : M → Except Err J) (fromJson : J → Except Err M) (c : Codec J) (stop : Option ℕ) (fs : FS)
    (path protocol : String) (m m' : M) (h : Copies toJson fromJson c m m')
    (hs : (saveFile toJson c stop fs path protocol m).2 = .ok ()) :
    loadFile fromJson c (saveFile toJson c stop fs path protocol m).1 path protocol = .ok m' := by
  obtain ⟨j, h1, h2, h3⟩ := h
  by_cases hj : protocol = "json"
  · subst hj
    simp only [saveFile, h1, if_true] at hs ⊢
    have hw := written_ok hs
    simp only [loadFile, put_same, hw, loadBytes, h3.json.2, h2, bind, Except.bind, pure, Except.pure, if_true, ne_eq,
      not_true_eq_false, false_and, if_false]
  · by_cases hk : protocol = "pickle"
    · subst hk
      have hne : ¬ ("pickle" = "json") := by decide
      simp only [saveFile, h1, if_true, if_neg hne] at hs ⊢
      have hw := written_ok hs
      have hr := h3.pick []
      rw [List.append_nil] at hr
      simp only [loadFile, put_same, hw, loadBytes, hr, h2, bind, Except.bind, pure, Except.pure, if_true, if_neg hne, ne_eq,
        not_true_eq_false, and_false, if_false]
    · simp [saveFile, hj, hk] at hs

/-- C120: saving touches no other file, whatever happens. -/
theorem C120_others (toJson : M → Except Err J) (c : Codec J) (stop : Option ℕ) (fs : FS) (path protocol : String) (m : M)
    (q : String) (hq : q ≠ path) : (saveFile toJson c stop fs path protocol m).1 q = fs q := by
  have hput : ∀ b, fs.put path b q = fs q := fun b => by simp [FS.put, hq]
  unfold saveFile
  split_ifs
  · cases toJson m <;> simp [hput]
  · cases toJson m <;> simp [hput]
  · rfl

/-- C120 for JSON and for unknown protocols: if the data of a tree cannot be made, the file is as before.  Missing: `pickle`
and failures while writing, where this is false. -/
theorem C120_failed_partial (toJson : M → Except Err J) (c : Codec J) (stop : Option ℕ) (fs : FS) (path : String) (m : M) :
    (∀ e, toJson m = .error e → saveFile toJson c stop fs path "json" m = (fs, .error e)) ∧
    ∀ protocol, ¬ Known protocol → saveFile toJson c stop fs path protocol m = (fs, .error .keyError) := by
  refine ⟨fun e h => by simp [saveFile, h], fun p hp => ?_⟩
  unfold Known at hp
  push Not at hp
  simp [saveFile, hp.1, hp.2]

/-- C120: a missing file and an unknown protocol are errors. -/
theorem C120_missing (fromJson : J → Except Err M) (c : Codec J) (fs : FS) (path protocol : String) :
    (¬ Known protocol → loadFile fromJson c fs path protocol = .error .keyError) ∧
    (Known protocol → fs path = none → loadFile fromJson c fs path protocol = .error .runtimeError) := by
  unfold Known
  refine ⟨fun h => ?_, fun h h' => ?_⟩
  · push Not at h
    simp [loadFile, h.1, h.2]
  · rcases h with rfl | rfl <;> simp [loadFile, h']

/-- C120: trees saved to a stream one after the other with `pickle` are loaded one after the other. -/
theorem C120_stream_partial (toJson : M → Except Err J) (fromJson : J → Except Err M) (c : Codec J) (ms ms' : List M)
    (h : List.Forall₂ (Copies toJson fromJson c) ms ms') (s : List ℕ) :
    ∃ b, saveAll toJson c "pickle" s ms = (s ++ b, .ok ()) ∧ loadAll fromJson c "pickle" ms.length b = .ok ms' := by
  have hne : ¬ ("pickle" = "json") := by decide
  suffices H : ∃ b, (∀ s, saveAll toJson c "pickle" s ms = (s ++ b, .ok ())) ∧
      ∀ r, loadAll fromJson c "pickle" ms.length (b ++ r) = .ok ms' by
    obtain ⟨b, h1, h2⟩ := H
    exact ⟨b, h1 s, by simpa using h2 []⟩
  induction h with
  | nil => exact ⟨[], fun s => by simp [saveAll], fun r => rfl⟩
  | @cons m m' ms ms' hm _ ih =>
    obtain ⟨j, h1, h2, h3⟩ := hm
    obtain ⟨b, ih1, ih2⟩ := ih
    refine ⟨c.pick j ++ b, fun s => ?_, fun r => ?_⟩
    · simp only [saveAll, saveStream, if_neg hne, if_true, h1, ih1, List.append_assoc]
    · simp only [List.length_cons, loadAll, loadBytes, if_neg hne, if_true, List.append_assoc, h3.pick, h2, bind, Except.bind,
        pure, Except.pure, ih2]

/-! ## Examples -/

/-- Data are a number, written as the number and an end mark. -/
def exCodec : Codec ℕ where
  json j := ([j, 0], none)
  unjson
    | [j, 0] => .ok j
    | _ => .error .valueError
  pick j := [j, 0]
  unpick
    | j :: 0 :: r => .ok (j, r)
    | _ => .error .valueError

/-- Trees are numbers; the data of 0 cannot be made. -/
def exToJson (m : ℕ) : Except Err ℕ := if m = 0 then .error .attributeError else .ok m

example : Copies exToJson .ok exCodec 5 5 ∧ List.Forall₂ (Copies exToJson .ok exCodec) [5, 7] [5, 7] := by
  have h : ∀ n, n ≠ 0 → Copies exToJson .ok exCodec n n := by
    intro n hn
    exact ⟨n, by simp [exToJson, hn], rfl, ⟨⟨rfl, rfl⟩, fun r => rfl⟩⟩
  exact ⟨h 5 (by decide), .cons (h 5 (by decide)) (.cons (h 7 (by decide)) .nil)⟩

/-- Disagreement: if the data of a tree cannot be made, saving it with `pickle`, the default, destroys the tree that was saved
in the file before; with JSON the file is left as it was. -/
theorem C120_violated_pickle :
    ∃ fs : FS, loadFile (M := ℕ) .ok exCodec fs "f" "pickle" = .ok 5 ∧
      (saveFile exToJson exCodec none fs "f" "pickle" 0).2 = .error .attributeError ∧
      (saveFile exToJson exCodec none fs "f" "pickle" 0).1 "f" = some [] ∧
      loadFile (M := ℕ) .ok exCodec (saveFile exToJson exCodec none fs "f" "pickle" 0).1 "f" "pickle" = .error .valueError ∧
      loadFile (M := ℕ) .ok exCodec (saveFile exToJson exCodec none fs "f" "json" 0).1 "f" "json" = .ok 5 :=
  ⟨fun q => if q = "f" then some [5, 0] else none, by decide, by decide, by decide, by decide, by decide⟩

/-- Disagreement: if the process is stopped while a tree is saved, the file can contain neither the tree that was saved before
nor the new one, for both protocols. -/
theorem C120_violated_crash :
    ∃ fs : FS, ∀ protocol, Known protocol → loadFile (M := ℕ) .ok exCodec fs "f" protocol = .ok 5 ∧
      loadFile (M := ℕ) .ok exCodec (saveFile exToJson exCodec (some 1) fs "f" protocol 7).1 "f" protocol =
        .error .valueError := by
  refine ⟨fun q => if q = "f" then some [5, 0] else none, fun protocol hp => ?_⟩
  rcases hp with rfl | rfl <;> decide

/-- Disagreement: two trees that have been saved to a stream as JSON cannot be loaded again, although each can be:
`json.load` reads the whole stream and rejects what follows the first value. -/
theorem C120_violated_stream :
    (saveAll exToJson exCodec "json" [] [5, 7]).2 = .ok () ∧
    loadAll (M := ℕ) .ok exCodec "json" 2 (saveAll exToJson exCodec "json" [] [5, 7]).1 = .error .valueError ∧
    loadAll (M := ℕ) .ok exCodec "json" 1 (saveAll exToJson exCodec "json" [] [5]).1 = .ok [5] ∧
    loadAll (M := ℕ) .ok exCodec "pickle" 2 (saveAll exToJson exCodec "pickle" [] [5, 7]).1 = .ok [5, 7] := by
  decide

end Verif.Files
