import Verif.Endp.Lemmas
/-!
# Properties of endpoints
-/
namespace Cobalt.Endp

/-! ## C43: endpoints round-trip -/

/-- The property C43 as stated: every endpoint made from valid arguments reads back. -/
def C43 : Prop := ∀ (big : Bool) (t p : Nat) (src : Src), src.Ok →
  ∃ ep, Endpoint.make big t p src = some ep ∧ ReadsBack big ep src ∧
    ∀ q : Proto, ep.getIf big q =
      if (q.type = 0 ∨ t = 0 ∨ q.type = t) ∧ (q.protocol = 0 ∨ p = 0 ∨ q.protocol = p)
      then expectView src.actual q.family else .nothing

theorem make_ok (big : Bool) (t p : Nat) (src : Src) (ok : src.Ok) :
    ∃ ep, Endpoint.make big t p src = some ep := by
  cases src with
  | unix path =>
    have : ¬ path.length ≥ 108 := by simp only [Src.Ok] at ok; omega
    simp only [Endpoint.make, Src.make, if_neg this]
    exact ⟨_, rfl⟩
  | _ => exact ⟨_, rfl⟩

/-- The statement for paths without NUL, and all other addresses. Missing: local paths with
the character NUL, such as abstract socket names, see `C43_violated`. -/
theorem C43_partial (big : Bool) (t p : Nat) (src : Src) (ok : src.Ok) (plain : src.Plain) :
    ∃ ep, Endpoint.make big t p src = some ep ∧ ReadsBack big ep src ∧
      ∀ q : Proto, ep.getIf big q =
        if (q.type = 0 ∨ t = 0 ∨ q.type = t) ∧ (q.protocol = 0 ∨ p = 0 ∨ q.protocol = p)
        then expectView src.actual q.family else .nothing := by
  obtain ⟨ep, h⟩ := make_ok big t p src ok
  refine ⟨ep, h, make_reads big t p src ep ok plain h, fun q => ?_⟩
  have hf := make_family big t p src ep h
  obtain ⟨ht, hp⟩ := make_fields big t p src ep h
  subst ht hp
  split
  · rename_i hc; exact getIf_eq big ep q _ hf hc.1 hc.2
  · rename_i hc; exact getIf_mismatch big ep q _ hf hc

example : (Src.v4text 0x7f000001 1234).Ok ∧ (Src.v4text 0x7f000001 1234).Plain ∧
    (Src.unix [47, 116, 109, 112]).Ok ∧ (Src.unix [47, 116, 109, 112]).Plain := by decide

/-- The view that belongs to the way an endpoint was made. -/
def Src.view : Src → View
  | .v4 .. | .v4text .. => .v4
  | .v6 .. => .v6
  | .ipv4 .. | .ipv6 .. => .ip
  | .unix .. => .unix

/-- Every endpoint can be read through the protocol it was made with. -/
theorem C43_own (big : Bool) (t p : Nat) (src : Src) (ep : Endpoint) (h : Endpoint.make big t p src = some ep) :
    ep.getIf big ⟨src.family, t, p⟩ = src.view := by
  obtain ⟨rfl, rfl⟩ := make_fields big t p src ep h
  rw [getIf_eq big ep _ _ (make_family big _ _ src ep h) (by simp) (by simp)]
  cases src <;> rfl

/-- The system finds the port in network order, high byte first. -/
theorem C43_wire (big : Bool) (t p : Nat) (src : Src) (ep : Endpoint) (ok : src.Ok) (port : Nat)
    (hp : src.port = some port) (h : Endpoint.make big t p src = some ep) :
    ep.mem.get 2 2 = some [byte (port / 256), byte port] := by
  cases src with
  | v4 a q => cases h; cases hp; exact in4_wire _ _ _ ok.2
  | v4text a q => cases h; cases hp; exact in4_wire _ _ _ ok.2
  | ipv4 a q => cases h; cases hp; exact in4_wire _ _ _ ok.2
  | v6 a q => cases h; cases hp; exact in6_wire _ _ _ ok.2
  | ipv6 a q => cases h; cases hp; exact in6_wire _ _ _ ok.2
  | unix path => cases hp

example : (Src.v4 1 80).Ok ∧ (Src.v4 1 80).port = some 80 ∧
    ∃ ep, Endpoint.make false 1 6 (.v4 1 80) = some ep := ⟨by decide, rfl, _, rfl⟩

/-- Every path is read back up to its first NUL. -/
theorem C43_path (big : Bool) (t p : Nat) (path : List Byte) (h : path.length < 108) :
    ∃ ep, Endpoint.make big t p (.unix path) = some ep ∧
      ep.path = some (path.takeWhile (· ≠ 0)) := by
  have : ¬ path.length ≥ 108 := by omega
  refine ⟨⟨blank.put 0 (sockaddrUn big path), 8, t, p⟩, ?_, un_path_any big path h ..⟩
  simp [Endpoint.make, Src.make, this]

example : ([0, 97, 98] : List Byte).length < 108 := by decide

/-- The name of an abstract socket, NUL and `a`, reads back empty. -/
theorem C43_violated : ¬ C43 := by
  intro h
  obtain ⟨ep, h1, h2, _⟩ := h false 1 0 (.unix [0, 97]) (by decide)
  obtain ⟨ep', h1', h3⟩ := C43_path false 1 0 [0, 97] (by decide)
  rw [h1] at h1'
  cases h1'
  simp only [ReadsBack] at h2
  rw [h2] at h3
  revert h3
  decide

/-- Exactly the paths with NUL do not read back. -/
theorem C43_exact (big : Bool) (t p : Nat) (src : Src) (ok : src.Ok) :
    (∃ ep, Endpoint.make big t p src = some ep ∧ ReadsBack big ep src ∧
      ∀ q : Proto, ep.getIf big q =
        if (q.type = 0 ∨ t = 0 ∨ q.type = t) ∧ (q.protocol = 0 ∨ p = 0 ∨ q.protocol = p)
        then expectView src.actual q.family else .nothing) ↔ src.Plain := by
  refine ⟨fun ⟨ep, h1, h2, _⟩ => ?_, fun h => C43_partial big t p src ok h⟩
  cases src with
  | unix path =>
    obtain ⟨ep', h1', h3⟩ := C43_path big t p path ok
    rw [h1] at h1'
    cases h1'
    simp only [ReadsBack] at h2
    rw [h2] at h3
    intro h0
    have h4 : path = path.takeWhile (· ≠ 0) := Option.some.inj h3
    rw [h4] at h0
    have h5 := List.all_eq_true.1 (List.all_takeWhile (p := fun x : Byte => decide (x ≠ 0)) (l := path)) 0 h0
    simp at h5
  | _ => trivial

example : (Src.unix [47, 97]).Ok ∧ (Src.unix [47, 97]).Plain ∧ ¬ (Src.unix [0, 97]).Plain := by decide

/-! ## C44: sizes -/

/-- The property C44 as stated. -/
def C44 : Prop := ∀ (big : Bool) (t p : Nat) (src : Src) (ep : Endpoint), src.Ok →
  Endpoint.make big t p src = some ep → src.need ≤ ep.size ∧ ep.size < 128

/-- The size fits the storage always; it covers the address exactly for IPv4 addresses, IPv6
addresses not made with `ip`, and local paths of at most five characters. Missing: longer
paths and IPv6 addresses made with `ip`, see `C44_violated`. -/
theorem C44_partial (big : Bool) (t p : Nat) (src : Src) (ep : Endpoint)
    (h : Endpoint.make big t p src = some ep) :
    ep.size < 128 ∧
    (src.need ≤ ep.size ↔ match src with
      | .ipv6 _ _ => False
      | .unix path => path.length ≤ 5
      | _ => True) := by
  cases src with
  | unix path =>
    simp only [Endpoint.make, Src.make] at h
    split at h
    · cases h
    · cases h; simp only [Src.need]; omega
  | _ => cases h; simp [Src.need]

example : ∃ ep, Endpoint.make false 1 6 (.v6 (List.replicate 15 0 ++ [1]) 80) = some ep := ⟨_, rfl⟩

/-- A path of six characters or more, and every IPv6 address given to `ip` as text, is cut
off. -/
theorem C44_violated : ¬ C44 := by
  intro h
  have := h false 1 6 (.ipv6 (List.replicate 16 0) 80) ⟨_, 16, 1, 6⟩ (by decide) rfl
  revert this; decide

theorem C44_violated_path : ¬ C44 := by
  intro h
  have := h false 1 0 (.unix [47, 116, 109, 112, 47, 115]) ⟨_, 8, 1, 0⟩ (by decide) rfl
  revert this; decide

/-! ## C45: predefined protocols -/

/-- The property C45 as stated. -/
def C45 : Prop := ∀ c : Const, (c.proto.family, c.proto.type, c.proto.protocol) = c.means

/-- All but `udp_v6`. -/
theorem C45_partial (c : Const) (h : c ≠ .udp_v6) :
    (c.proto.family, c.proto.type, c.proto.protocol) = c.means := by
  cases c <;> first | rfl | exact absurd rfl h

example : Const.sctp_v6 ≠ .udp_v6 := by decide

/-- `udp_v6` has the number of ICMP. -/
theorem C45_violated : ¬ C45 := fun h => absurd (h .udp_v6) (by decide)

/-- It is the only one. -/
theorem C45_exact (c : Const) :
    (c.proto.family, c.proto.type, c.proto.protocol) = c.means ↔ c ≠ .udp_v6 :=
  ⟨fun h he => absurd (he ▸ h) (by decide), C45_partial c⟩

/-- In consequence an endpoint made with `udp_v6` is not found when asked for `udp`, and
found when asked for `icmp`. -/
theorem C45_consequence (big : Bool) (addr : List Byte) (port : Nat) (ha : addr.length = 16)
    (hp : port < 2 ^ 16) :
    ∃ ep, Endpoint.make big Const.udp_v6.proto.type Const.udp_v6.proto.protocol (.v6 addr port) = some ep
      ∧ ep.getIf big Const.udp.proto = .nothing ∧ ep.getIf big Const.icmp.proto = .ip := by
  obtain ⟨ep, h, _, hv⟩ := C43_partial big Const.udp_v6.proto.type Const.udp_v6.proto.protocol
    (.v6 addr port) ⟨ha, hp⟩ trivial
  refine ⟨ep, h, ?_, ?_⟩
  · rw [hv]; rfl
  · rw [hv]; rfl

example : (List.replicate 16 (0 : Byte)).length = 16 ∧ 80 < 2 ^ 16 := by decide

/-! ## C61: copies -/

/-- The property C61 as stated: a copy reads as the original. -/
def C61 : Prop := ∀ (big : Bool) (t p : Nat) (src : Src) (ep : Endpoint), src.Ok → src.Plain →
  Endpoint.make big t p src = some ep →
  ∃ ep', ep.copyOther = some ep' ∧ (∀ q, ep'.getIf big q = ep.getIf big q) ∧ ReadsBack big ep' src

/-- What survives a copy that is chosen for `endpoint` arguments that are not `const`: all but
IPv6 addresses made with `ip` and local paths of more than six characters. -/
theorem C61_partial (big : Bool) (t p : Nat) (src : Src) (ep : Endpoint)
    (ok : src.Ok) (plain : src.Plain) (h : Endpoint.make big t p src = some ep)
    (hs : match src with
      | .ipv6 _ _ => False
      | .unix path => path.length ≤ 6
      | _ => True) :
    ∃ ep', ep.copyOther = some ep' ∧ (∀ q, ep'.getIf big q = ep.getIf big q) ∧
      ReadsBack big ep' src := by
  have hr := make_reads big t p src ep ok plain h
  cases src with
  | v4 a q => cases h; exact ⟨_, copy_in4 .., fun _ => rfl, hr⟩
  | v4text a q => cases h; exact ⟨_, copy_in4 .., fun _ => rfl, hr⟩
  | ipv4 a q => cases h; exact ⟨_, copy_in4 .., fun _ => rfl, hr⟩
  | v6 a q => cases h; exact ⟨_, copy_in6 _ _ _ ok.1 _ _, fun _ => rfl, hr⟩
  | ipv6 a q => exact hs.elim
  | unix path =>
    simp only [Endpoint.make, Src.make] at h
    split at h
    · cases h
    · cases h
      refine ⟨_, rfl, fun q => copy_getIf big _ _ (by simp) rfl q, ?_⟩
      have := copy_path big path ok plain t p _ rfl
      simp only at hs
      rwa [List.take_of_length_le hs] at this

example : (Src.unix [47, 116, 109, 112, 47, 115]).Ok ∧ (Src.unix [47, 116, 109, 112, 47, 115]).Plain ∧
    ∃ ep, Endpoint.make true 1 0 (.unix [47, 116, 109, 112, 47, 115]) = some ep :=
  ⟨by decide, by decide, _, rfl⟩

/-- A copy has the first six characters of a local path. -/
theorem C61_path (big : Bool) (t p : Nat) (path : List Byte) (h : path.length < 108) (h0 : 0 ∉ path) :
    ∃ ep ep', Endpoint.make big t p (.unix path) = some ep ∧ ep.copyOther = some ep' ∧
      ep.path = some path ∧ ep'.path = some (path.take 6) := by
  have hn : ¬ path.length ≥ 108 := by omega
  refine ⟨⟨blank.put 0 (sockaddrUn big path), 8, t, p⟩, _, ?_, rfl, un_path big path h h0 ..,
    copy_path big path h h0 t p _ rfl⟩
  simp [Endpoint.make, Src.make, hn]

/-- Reading the address of a copied IPv6 endpoint made with `ip` is undefined behaviour. -/
theorem C61_ipv6 (big : Bool) (t p : Nat) (addr : List Byte) (port : Nat) :
    ∃ ep ep', Endpoint.make big t p (.ipv6 addr port) = some ep ∧ ep.copyOther = some ep' ∧
      ep'.addr6 = none :=
  ⟨_, _, rfl, rfl, copy_ipv6 big port addr t p _ rfl⟩

/-- Exactly which endpoints survive such a copy. -/
theorem C61_exact (big : Bool) (t p : Nat) (src : Src) (ep : Endpoint)
    (ok : src.Ok) (plain : src.Plain) (h : Endpoint.make big t p src = some ep) :
    (∃ ep', ep.copyOther = some ep' ∧ (∀ q, ep'.getIf big q = ep.getIf big q) ∧ ReadsBack big ep' src) ↔
    match src with
    | .ipv6 _ _ => False
    | .unix path => path.length ≤ 6
    | _ => True := by
  refine ⟨fun ⟨ep', h1, _, h3⟩ => ?_, fun hs => C61_partial big t p src ep ok plain h hs⟩
  cases src with
  | ipv6 a q =>
    obtain ⟨ep2, ep2', h4, h5, h6⟩ := C61_ipv6 big t p a q
    rw [h] at h4
    cases h4
    rw [h1] at h5
    cases h5
    have := h3.1
    rw [h6] at this
    cases this
  | unix path =>
    obtain ⟨ep2, ep2', h4, h5, _, h6⟩ := C61_path big t p path ok plain
    rw [h] at h4
    cases h4
    rw [h1] at h5
    cases h5
    simp only [ReadsBack] at h3
    rw [h3] at h6
    have := congrArg List.length (Option.some.inj h6)
    simp only [List.length_take] at this
    simp only
    omega
  | _ => trivial

example : (Src.unix (List.replicate 50 47)).Ok ∧ (Src.unix (List.replicate 50 47)).Plain := by decide

/-- `/tmp/so` becomes `/tmp/s`. -/
theorem C61_violated : ¬ C61 := by
  intro h
  obtain ⟨ep, ep', h1, h2, _, h4⟩ := C61_path false 1 0 [47, 116, 109, 112, 47, 115, 111] (by decide) (by decide)
  obtain ⟨ep'', h5, _, h6⟩ := h false 1 0 _ ep (by decide) (by decide) h1
  rw [h2] at h5
  cases h5
  simp only [ReadsBack] at h6
  rw [h6] at h4
  revert h4; decide

end Cobalt.Endp
