import Verif.Props.C01_C02_ByteReader
import Verif.Props.C03_C05_ByteWriter
import Verif.Props.C06_Endian
import Verif.Props.C07_C08_MemoryView
import Verif.Props.C09_C11_Base16
import Verif.Props.C12_C16_Base64
import Verif.Props.C70_Encoder
import Verif.Props.C17_C20_Memory
import Verif.Props.C21_C28_StringView
import Verif.Props.C29_C31_String
import Verif.Props.C29_C31_Exact
import Verif.Props.C32_C33_StringBuilder
import Verif.Props.C71_C74_Char
import Verif.Props.C34_C36_Version
import Verif.Props.C37_C39_Uuid
import Verif.Props.C38_UuidParse
import Verif.Props.C40_Atom
import Verif.Props.C41_DialString
import Verif.Props.C42_C43_VariableSpan
import Verif.Props.C44_Vector
import Verif.Props.C45_Lifetimes
import Verif.Props.C46_Guard
import Verif.Props.C47_Dictionary
import Verif.Props.C48_C50_PathText
import Verif.Props.C51_PathNormalize
import Verif.Props.C52_PathContains
import Verif.Props.C53_C54_PathParts
import Verif.Props.C55_C56_OptionalResult
import Verif.Props.C57_Payload
import Verif.Props.C58_Md5
import Verif.Props.C59_Sha1
import Verif.Props.C60_Sha256
import Verif.Props.C61_C62_Hashing
import Verif.Props.C63_Murmur3
import Verif.Props.C64_MessageDigest
import Verif.Props.C65_Env
import Verif.Props.C66_ErrorDomain
import Verif.Props.C67_Exception
import Verif.Props.C68_RangeView
import Verif.Props.C69_ArrayView
import Verif.Props.C77_C78_Streams
import Verif.Props.C79_Constants
import Verif.Props.C80_MemoryAccess
import Verif.Props.C81_ArrayFactory
import Verif.Props.C82_Output
import Verif.Props.C83_DictionaryIteration
import Verif.Props.C84_Murmur3X86
import Verif.Props.C85_Murmur3Injective
import Verif.Props.C36_VersionParse
import Verif.Props.C86_StringOwner
import Verif.Props.C87_StringViewMake
import Verif.Props.C88_Assert
import Verif.Props.C89_ResultCompare
import Verif.Props.C90_PathMore
import Verif.Props.C91_StringArgs
import Verif.Props.C92_UuidMore
import Verif.Props.C93_StringQueries
import Verif.Props.C94_HashReader
import Verif.Props.C95_SystemErrors
import Verif.Props.C96_DecodeAny
import Verif.Props.C97_StreamOwner
import Verif.Props.C98_ExceptionOwner
import Verif.Props.C99_MemoryLock
import Verif.Props.C100_CharObject
import Verif.Props.C101_ViewObject
import Verif.Props.C102_EnvIterate
import Verif.Props.C103_Sha256Smaller
import Verif.Props.C104_Alignment
import Verif.Props.C105_Measure
import Verif.Props.C01_C04_Exact
import Verif.Props.C12_Exact
import Verif.Props.C19_Exact
import Verif.Props.C24_Exact
import Verif.Props.C27_C32_Exact
import Verif.Props.C34_C36_Exact
import Verif.Props.C45_Exact
import Verif.Props.C47_C48_Exact
import Verif.Props.C51_Exact
import Verif.Props.C57_Exact
import Verif.Props.C58_C60_Exact
import Verif.Props.C63_C84_Exact
import Verif.Props.C85_Exact
import Verif.Props.C99_Exact
import Verif.Props.C94_Exact
import Verif.Props.C91_Exact
import Verif.Props.C65_Exact
import Verif.Props.C69_Exact
import Verif.Props.C80_Exact
import Verif.Props.C74_Exact
import Verif.Props.C83_Exact
import Verif.Props.C81_Exact
import Verif.Props.C40_C41_Exact
import Verif.Model.EncodePieces
import Verif.Props.C106_Pieces
import Verif.Model.Record
import Verif.Props.C107_Records
import Verif.Props.C108_StringLaws
import Verif.Props.C109_PathLaws
import Verif.Props.C10_C14_Exact
import Verif.Props.C49_C52_Exact
import Verif.Props.C28_C55_C72_Exact
import Verif.Props.C76_C82_Exact
import Verif.Props.C67_Exact
import Verif.Props.C88_Exact
import Verif.Props.C33_Exact
import Verif.Props.C93_Exact
import Verif.Props.C110_Startup
import Verif.Props.C111_DsParser
import Verif.Props.C112_TextOrder
import Verif.Conformance.Basic
import Verif.Conformance.StringView
import Verif.Conformance.String
import Verif.Conformance.Encoding
import Verif.Conformance.Buffers
import Verif.Conformance.Values
import Verif.Conformance.Path
import Verif.Conformance.Hashing
import Verif.Conformance.Containers
import Verif.Conformance.Memory
import Verif.Conformance.Results
import Verif.Props.C113_Chains
import Verif.Props.C114_SharedMemory
import Verif.Props.C115_SystemMemory
import Verif.Props.C116_Terminate
import Verif.Props.C117_MemoryCalls
import Verif.Props.C118_LengthExtension
import Verif.Props.C119_MurmurReach
import Verif.Model.VersionValue
import Verif.Props.C120_VersionValue
import Verif.Model.TypeFunctions
import Verif.Props.C121_TypeFunctions
import Verif.Model.TypedView
import Verif.Props.C122_TypedView
import Verif.Props.C123_PathMemory
import Verif.Props.C123_Programs
import Verif.Model.PayloadThrow
import Verif.Spec.PayloadThrow
import Verif.Props.C124_PayloadThrow
import Verif.Model.Containers
import Verif.Spec.Containers
import Verif.Props.C125_Containers
import Verif.Props.C126_ResultTypes
import Verif.Props.C127_Literals
import Verif.Props.C128_HashPrograms
import Verif.Props.C129_Callbacks
import Verif.Props.C130_DomainLife
import Verif.Props.C131_StringMemory
import Verif.Props.C132_NestedMemory
import Verif.Props.C133_NestedViews
import Verif.Props.C134_Compare
import Verif.Props.C135_Iterators
import Verif.Props.C136_OldMemory
import Verif.Props.C137_Pipeline
import Verif.Model.DigestObjects
import Verif.Spec.DigestObjects
import Verif.Lemmas.DigestObjects
import Verif.Props.C138_DigestObjects
import Verif.Model.Callable
import Verif.Spec.Callable
import Verif.Lemmas.Callable
import Verif.Lemmas.CallableTables
import Verif.Props.C139_Callable
import Verif.Props.C140_Requests
import Verif.Props.C140_Bounds
import Verif.Model.FixedSizeDigest
import Verif.Props.C75_FixedSizeDigest
import Verif.Model.Machine
import Verif.Lemmas.Machine
import Verif.Props.C141_Machines
import Verif.Props.C141_ByteOrder
import Verif.Props.C07_Index
import Verif.Model.OptionalConvert
import Verif.Spec.OptionalConvert
import Verif.Lemmas.OptionalConvert
import Verif.Props.C142_OptionalConvert
import Verif.Props.C142_OptionalAssign
import Verif.Model.OptionalRef
import Verif.Props.C143_OptionalRef
import Verif.Props.C118_Exact
import Verif.Model.ResultConvert
import Verif.Props.C144_ResultConvert
import Verif.Model.Reuse
import Verif.Props.C145_Reuse
import Verif.Props.C112_Exact
import Verif.Model.Overloads
import Verif.Props.C146_Overloads
import Verif.Props.C104_Put
import Verif.Model.Loops
import Verif.Spec.Loops
import Verif.Props.C147_Loops
import Verif.Props.C143_Ended
import Verif.Props.C37_Size
import Verif.Model.Reads
import Verif.Spec.Reads
import Verif.Props.C148_Reads
import Verif.Props.C21_Collisions
import Verif.Model.ResultRef
import Verif.Spec.ResultRef
import Verif.Props.C149_ResultRef
import Verif.Spec.Docs
import Verif.Props.C150_Docs
import Verif.Model.IndexLoops
import Verif.Spec.IndexLoops
import Verif.Props.C151_IndexLoops
import Verif.Props.C151_Fits
import Verif.Model.DtorThrow
import Verif.Spec.DtorThrow
import Verif.Props.C152_DtorThrow
import Verif.Model.Threads
import Verif.Spec.Threads
import Verif.Props.C153_Threads
import Verif.Props.C153_Guarded
import Verif.Props.C153_Serial
import Verif.Props.C153_Apart
import Verif.Props.C153_Registry
import Verif.Model.InPlace
import Verif.Props.C154_InPlace
import Verif.Model.Channel
import Verif.Spec.Channel
import Verif.Props.C155_Channel
import Verif.Props.C134_Uuid
import Verif.Props.C154_RoundTrip
import Verif.Model.Ordered
import Verif.Spec.Ordered
import Verif.Props.C156_Ordered
import Verif.Model.Sorting
import Verif.Props.C157_Sorting
import Verif.Spec.Sorting
import Verif.Model.HeapSort
import Verif.Props.C157_Heap
import Verif.Model.OptionalAlias
import Verif.Spec.OptionalAlias
import Verif.Props.C158_OptionalAlias
import Verif.Model.PathOrder
import Verif.Props.C157_Paths
import Verif.Model.HashTable
import Verif.Spec.HashTable
import Verif.Props.C159_HashTable
