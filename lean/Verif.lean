import Verif.Model.Methods
import Verif.Proof.Mono
import Verif.Proof.NamedDecode
import Verif.Props.Determinism
import Verif.Props.StructDecode
import Verif.Proof.FieldFacts
import Verif.Props.Integers
import Verif.Props.Collections
import Verif.Proof.Plan
import Verif.Spec.Typing
import Verif.Proof.TotalFill
import Verif.Props.Total
import Verif.Spec.JsonText
import Verif.Spec.LooseText
import Verif.Model.Parser
import Verif.Proof.Parser
import Verif.Proof.ParseJson
import Verif.Proof.ParseLoose
import Verif.Spec.Codecs
import Verif.Proof.Codecs
import Verif.Proof.GoInt
import Verif.Spec.TextApi
import Verif.Props.Text
import Verif.Proof.Base64
import Verif.Props.Base64
import Verif.Spec.Zero
import Verif.Proof.Zero
import Verif.Props.Zero
import Verif.Spec.Append
import Verif.Spec.Encode
import Verif.Proof.Frame
import Verif.Proof.JsonBuild
import Verif.Proof.EncodeElem
import Verif.Proof.EncodeList
import Verif.Proof.EncodePlan
import Verif.Proof.EncodeField
import Verif.Proof.EncodeSound
import Verif.Proof.EncodeUnique
import Verif.Proof.JsonUnique
import Verif.Props.Encode
import Verif.Props.Omitempty
import Verif.Props.EncodeSamples
import Verif.Props.EncodeFields
import Verif.Spec.RoundTrip
import Verif.Proof.TripBase
import Verif.Proof.TripShape
import Verif.Proof.TripKeys
import Verif.Proof.RoundTrip
import Verif.Proof.RoundTripMain
import Verif.Props.RoundTrip
import Verif.Props.RoundTripSamples
import Verif.Model.Tags
import Verif.Spec.Tags
import Verif.Props.Tags
import Verif.Model.GoText
import Verif.Spec.GoText
import Verif.Proof.GoText
import Verif.Props.GoText
import Verif.Props.NameTexts
import Verif.Model.Discover
import Verif.Spec.Discover
import Verif.Props.Discover
import Verif.Model.Front
import Verif.Spec.Front
import Verif.Proof.Front
import Verif.Props.Front
import Verif.Model.Pool
import Verif.Props.Pool
import Verif.Spec.Reset
import Verif.Proof.Reset
import Verif.Proof.AsNew
import Verif.Props.Reset
import Verif.Spec.EncodeTotal
import Verif.Proof.EncodeTotal
import Verif.Props.EncodeTotal
import Verif.Spec.EncodeError
import Verif.Proof.EncodeError
import Verif.Props.EncodeError
import Verif.Model.Buffers
import Verif.Proof.Buffers
import Verif.Props.Buffers
import Verif.Spec.Growth
import Verif.Proof.Growth
import Verif.Props.Growth
import Verif.Model.HeapText
import Verif.Spec.Calls
import Verif.Proof.Calls
import Verif.Props.Calls
import Verif.Spec.EncodedSize
import Verif.Proof.EncodedSize
import Verif.Props.EncodedSize
import Verif.Props.Copy
import Verif.Spec.Layout
import Verif.Proof.Layout
import Verif.Props.Layout
import Verif.Model.ErrorText
import Verif.Spec.Message
import Verif.Proof.Speaks
import Verif.Props.Message
import Verif.Spec.Walks
import Verif.Props.Walks
import Verif.Spec.Order
import Verif.Proof.Order
import Verif.Props.Order
import Verif.Spec.Errors
import Verif.Proof.Errors
import Verif.Props.Errors
import Verif.Spec.Named
import Verif.Props.Named
import Verif.Props.Repeat
import Verif.Spec.Evolve
import Verif.Proof.Evolve
import Verif.Props.Evolve
import Verif.Spec.Trim
import Verif.Proof.Trim
import Verif.Props.Trim
import Verif.Spec.Plain
import Verif.Proof.Plain
import Verif.Props.Plain
import Verif.Model.Lookup
import Verif.Spec.Lookup
import Verif.Props.Lookup
import Verif.Model.Link
import Verif.Model.Emit
import Verif.Spec.Link
import Verif.Proof.Link
import Verif.Proof.Inline
import Verif.Props.Link
import Verif.Spec.Same
import Verif.Proof.Same
import Verif.Props.Same
import Verif.Spec.Support
import Verif.Proof.Support
import Verif.Proof.SupportZero
import Verif.Proof.SupportFill
import Verif.Props.Support
import Verif.Model.Output
import Verif.Spec.Output
import Verif.Proof.Output
import Verif.Props.Output
import Verif.Proof.Lexer
import Verif.Spec.EncodeExact
import Verif.Proof.EncodeBad
import Verif.Proof.EncodeBadField
import Verif.Proof.EncodeBadSound
import Verif.Props.EncodeExact
import Verif.Model.Heap
import Verif.Model.HeapEnc
import Verif.Model.HeapReset
import Verif.Model.HeapMethods
import Verif.Spec.Heap
import Verif.Proof.HeapBase
import Verif.Proof.HeapLoop
import Verif.Proof.HeapFill
import Verif.Proof.HeapExtr
import Verif.Proof.HeapEnc
import Verif.Proof.HeapReset
import Verif.Proof.HeapClear
import Verif.Proof.HeapMain
import Verif.Proof.HeapFrame
import Verif.Proof.HeapMade
import Verif.Props.Heap
import Verif.Props.HeapEnc
import Verif.Model.Bytes
import Verif.Spec.Bytes
import Verif.Proof.Utf8
import Verif.Proof.BytesParse
import Verif.Proof.BytesWrite
import Verif.Proof.BytesMend
import Verif.Props.Bytes
import Verif.Props.IfJson
import Verif.Props.OwnOutput
import Verif.Props.Cut
import Verif.Props.CutMaps
import Verif.Spec.Deep
import Verif.Props.Deep
import Verif.Spec.Hints
import Verif.Proof.Hints
import Verif.Spec.Updates
import Verif.Proof.Updates
import Verif.Props.Updates
import Verif.Props.StrictEmbed
import Verif.Props.SameName
import Verif.Props.Found
import Verif.Props.Chosen
import Verif.Spec.Ends
import Verif.Props.Ends
import Verif.Model.Paths
import Verif.Spec.Paths
import Verif.Proof.Paths
import Verif.Props.Paths
import Verif.Model.TimeText
import Verif.Spec.TimeText
import Verif.Spec.TimeLayout
import Verif.Proof.Calendar
import Verif.Proof.TimeText
import Verif.Proof.TimeWrite
import Verif.Proof.TimeLayout
import Verif.Props.Times
import Verif.Props.TimesSamples
import Verif.Props.TimeConsts
import Verif.Props.Kept
import Verif.Props.KeptSamples
import Verif.Model.Floats
import Verif.Spec.Floats
import Verif.Proof.Floats
import Verif.Proof.FloatsNear
import Verif.Props.Floats
import Verif.Props.FloatsSamples
