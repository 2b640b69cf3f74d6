import Verif.Fin.Lemmas
/-!
# Properties of the end of coroutines
-/
namespace Cobalt.Fin

/-- **C75**: every coroutine that ends, ends like this. -/
def C75 : Prop := ∀ k es, ending es ≠ none → Clean k es

/-- **C75, exactly**: it holds if the body returns, or if the coroutine has an owner when its body
throws. -/
theorem C75_exact (k : Kind) (es : List Ev) (h : ending es ≠ none) :
    Clean k es ↔ ending es = some none ∨ ownedAtEnd k es = true := by
  obtain ⟨a, e, b, hes, ha, he, hend, htw⟩ := split es h
  have hg : Going k (run k a) := going_run k a ha
  have hown : ownedAtEnd k es = (run k a).owner := by unfold ownedAtEnd; rw [htw]
  have hrun : run k es = b.foldl St.step ((run k a).step e) := by
    rw [hes]; simp [run, List.foldl_append]
  have key : ∀ x, Ended k ((run k a).step e) x →
      x = (match ending es with
        | some (some n) => [(n, if ownedAtEnd k es then Place.owner else .resumer)]
        | _ => []) → Clean k es := by
    intro x hx hxe
    have := hx.over (over_run _ hx.dead b)
    rw [← hrun] at this
    exact ⟨this.frame, this.thrown.trans hxe, this.awaiter, this.once⟩
  have hwho : (run k a).awaiter = true → k.owned = true := fun h => hg.who (hg.owned h)
  cases e with
  | detach | await | awaiterGoesOn => cases he
  | ret =>
    refine ⟨fun _ => .inl hend, fun _ => key [] ?_ (by rw [hend])⟩
    have := final_ended hg.kind hg.resumed hg.destroyed hwho
    rw [hg.thrown] at this
    simpa [St.step, hg.frame] using this
  | throws n =>
    rw [hend, hown]
    cases ho : (run k a).owner with
    | true =>
      refine ⟨fun _ => .inr rfl, fun _ => key [(n, .owner)] ?_ (by rw [hend, hown, ho]; rfl)⟩
      have hk := hg.who ho
      have := final_ended (s := { run k a with thrown := [(n, .owner)] }) hg.kind hg.resumed
        hg.destroyed hwho
      have hu : (run k a).step (.throws n) =
          St.final { run k a with thrown := [(n, .owner)] } := by
        have hkind := hg.kind
        cases k <;> simp_all [St.step, St.unhandled, hg.frame, hg.thrown, Kind.owned]
      rw [hu]
      exact this
    | false =>
      refine ⟨fun hc => ?_, fun hc => by rcases hc with hc | hc <;> cases hc⟩
      have hne : k ≠ .with_ := fun hk => by rw [hg.with_ hk] at ho; cases ho
      have hf : ((run k a).step (.throws n)).frame = .lost ∨
          ((run k a).step (.throws n)).frame = .terminated ∨
          ((run k a).step (.throws n)).frame = .ub := by
        have hkind := hg.kind
        cases k <;> simp_all [St.step, St.unhandled, hg.frame]
      have hov := over_run ((run k a).step (.throws n)) (by
        rcases hf with hf | hf | hf <;> rw [hf] <;> simp) b
      rw [← hrun] at hov
      rcases hov.frame with h1 | h1
      · rcases hc.frame with h2 | h2 <;> rw [h1.1] at h2 <;>
          rcases hf with hf | hf | hf <;> rw [hf] at h2 <;> cases h2.1
      · rcases hf with hf | hf | hf <;> rw [hf] at h1 <;> cases h1.1

/-- An awaited task throws: its frame is destroyed, its awaiter is resumed with the exception. -/
example : Clean .task [.await, .throws 3] ∧
    run .task [.await, .throws 3] =
      { kind := .task, owner := true, frame := .destroyed, thrown := [(3, .owner)], resumed := 1,
        destroyed := 1 } :=
  ⟨(C75_exact _ _ (by decide)).mpr (.inr (by decide)), by decide⟩

/-- A `with` that throws is destroyed by who awaits it. -/
example : (run .with_ [.await, .throws 3]).frame = .parked ∧
    (run .with_ [.await, .throws 3, .awaiterGoesOn]).destroyed = 1 := by decide

/-- **C75, what holds**: coroutines that return, and promises, tasks and generators that throw while
they have an owner.
Missing: those without owner that throw (`C75_violated`). -/
theorem C75_partial (k : Kind) (es : List Ev) (h : ending es ≠ none)
    (ho : ending es = some none ∨ ownedAtEnd k es = true) : Clean k es :=
  (C75_exact k es h).mpr ho

example : Clean .promise [.detach, .ret] := C75_partial _ _ (by decide) (.inl rfl)

/-- **C75**, for promises, tasks, generators and `with` that are not detached. -/
theorem C75_kept (k : Kind) (hk : k = .promise ∨ k = .task ∨ k = .generator ∨ k = .with_)
    (es : List Ev) (hd : .detach ∉ es) (h : ending es ≠ none) : Clean k es := by
  refine C75_partial k es h (.inr ?_)
  have key : ∀ (es : List Ev) (s : St), .detach ∉ es → s.owner = true →
      (∀ e ∈ es, isEnd e = false) → (es.foldl St.step s).owner = true := by
    intro es
    induction es with
    | nil => exact fun _ _ h _ => h
    | cons e es ih =>
      intro s hd ho he
      refine ih _ (fun h => hd (List.mem_cons_of_mem _ h)) ?_
        (fun x hx => he x (List.mem_cons_of_mem _ hx))
      cases e with
      | detach => exact absurd (by simp) hd
      | await => simp only [St.step]; split <;> exact ho
      | awaiterGoesOn => simp only [St.step]; split <;> exact ho
      | ret => exact absurd (he .ret (by simp)) (by simp [isEnd])
      | throws n => exact absurd (he (.throws n) (by simp)) (by simp [isEnd])
  refine key _ _ (fun h => hd (List.takeWhile_sublist _ |>.subset h)) ?_ ?_
  · rcases hk with rfl | rfl | rfl | rfl <;> rfl
  · intro e he
    have := List.all_takeWhile (p := fun e => !isEnd e) (l := es)
    rw [List.all_eq_true] at this
    simpa using this e he

/-- A generator that throws while it is awaited. -/
example : (run .generator [.await, .throws 5]).thrown = [(5, .owner)] :=
  (C75_kept .generator (.inr (.inr (.inl rfl))) [.await, .throws 5] (by decide) (by decide)).thrown

/-- **C75 is violated**: the frame of a detached promise that throws is never destroyed. -/
theorem C75_violated : ¬C75 := fun h =>
  absurd ((C75_exact .promise [.detach, .throws 1] (by decide)).mp (h _ _ (by decide))) (by decide)

/-- **C75 is violated** for every coroutine without an owner that throws: nobody destroys its frame,
ever, whatever happens afterwards. -/
theorem C75_lost (k : Kind) (hk : k = .detached ∨ k = .main ∨ k = .thread ∨ k = .composition)
    (n : Nat) (es : List Ev) :
    (run k (.throws n :: es)).frame = .lost ∧ (run k (.throws n :: es)).destroyed = 0 ∧
      (run k (.throws n :: es)).thrown = [(n, .resumer)] := by
  have hs : ((init k).step (.throws n)).frame = .lost ∧
      ((init k).step (.throws n)).destroyed = 0 ∧
      ((init k).step (.throws n)).thrown = [(n, .resumer)] := by
    rcases hk with rfl | rfl | rfl | rfl <;> exact ⟨rfl, rfl, rfl⟩
  have ho := over_run ((init k).step (.throws n)) (by rw [hs.1]; simp) es
  have hr : run k (.throws n :: es) = es.foldl St.step ((init k).step (.throws n)) := rfl
  rw [hr]
  refine ⟨?_, ?_, ho.thrown.trans hs.2.2⟩
  · rcases ho.frame with h | h
    · exact h.1.trans hs.1
    · rw [hs.1] at h; cases h.1
  · rcases ho.frame with h | h
    · exact h.2.trans hs.2.1
    · rw [hs.1] at h; cases h.1

example : (run .detached [.throws 4, .awaiterGoesOn]).frame = .lost :=
  (C75_lost .detached (.inl rfl) 4 [.awaiterGoesOn]).1

/-- **C75 is violated** by `post_coroutine`: it is destroyed while it runs. -/
theorem C75_post_violated : (run .post [.throws 1]).frame = .ub := by decide

end Cobalt.Fin
