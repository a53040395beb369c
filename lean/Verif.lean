import Verif.Key.Layout
import Verif.Time.C10
import Verif.Time.C12
import Verif.Time.C13
import Verif.Names.DocId
import Verif.Names.Namespaces
import Verif.Names.Legacy
import Verif.Names.QueryKey
import Verif.Store.C22
import Verif.Store.Atomic
import Verif.Store.C28
import Verif.Views.C26b
import Verif.Views.C32
import Verif.Views.C33
import Verif.Views.C35
import Verif.KV.C39
import Verif.KV.C42
import Verif.KV.C43
import Verif.Tasks.C44
import Verif.Vault.C45
import Verif.Vault.C57
import Verif.Storage.C46
import Verif.Storage.C56
import Verif.Identity.C47
import Verif.Identity.C48
import Verif.Backup.C49
import Verif.Backup.C49Path
import Verif.Files.C50
import Verif.Files.C50b
import Verif.Files.Reader
import Verif.Files.C51
import Verif.Files.C51b
import Verif.Files.C51c
import Verif.Files.Paths
import Verif.Files.C52Keys
import Verif.Files.C52
import Verif.Files.C52b
import Verif.Files.C52c
import Verif.Files.C52d
import Verif.Files.Life
import Verif.Files.C53
import Verif.Files.C53b
import Verif.Files.C53c
import Verif.Net.Client
import Verif.Net.C54
import Verif.Net.C54b
import Verif.Net.C54c
import Verif.Net.Server
import Verif.Net.C55
import Verif.Net.C55b
import Verif.Net.Workers
import Verif.Net.C62
import Verif.Vault.C65
import Verif.Tasks.Compact
import Verif.Tasks.CompactInv
import Verif.Tasks.C64
import Verif.Tasks.C64b
import Verif.Files.C51d
import Verif.Access.Model
import Verif.Access.C58
import Verif.Access.C58b
import Verif.Access.C58c
import Verif.Access.C58d
import Verif.Access.C58e
import Verif.Remote.Model
import Verif.Remote.C66
import Verif.Remote.C66b
import Verif.Pubsub.Model
import Verif.Pubsub.Core
import Verif.Pubsub.C67
import Verif.Pubsub.Remote
import Verif.Pubsub.C67b
import Verif.Pubsub.C67c
import Verif.Identity.Calls
import Verif.Identity.C68
import Verif.Identity.C68b
import Verif.Views.Entry
import Verif.Views.C69
import Verif.Views.C69b
import Verif.Views.C69c
import Verif.Views.C69d
import Verif.Wire.Model
import Verif.Wire.C70
import Verif.Wire.Witness
import Verif.Typed.Model
import Verif.Typed.Spec
import Verif.Typed.Core
import Verif.Typed.Writes
import Verif.Typed.Reads
import Verif.Typed.Refine
import Verif.Typed.C71
import Verif.Typed.Modify
import Verif.Typed.C72
import Verif.Typed.C72b
import Verif.Typed.Tx
import Verif.Typed.C73
import Verif.Typed.Views
import Verif.Typed.C74Core
import Verif.Typed.C74
import Verif.Typed.C74b
import Verif.Typed.C74c
import Verif.Typed.C74d
import Verif.Typed.C74e
import Verif.Views.Wait
import Verif.Views.WaitInv
import Verif.Views.C75
import Verif.Views.C75b
import Verif.Views.C75c
import Verif.Views.C75d
import Verif.Views.C75e
import Verif.Views.C75f
import Verif.KV.F64
import Verif.KV.C39b
import Verif.KV.Api
import Verif.KV.C76
import Verif.KV.C76b
import Verif.KV.C76c
import Verif.KV.C76d
import Verif.KV.C76e
import Verif.Files.Buffered
import Verif.Files.C77
import Verif.Files.C77b
import Verif.Files.C77c
import Verif.Schema.Model
import Verif.Schema.C78
import Verif.Store.Compat
import Verif.Store.C79
import Verif.Views.Upgrade
import Verif.Views.C80
import Verif.Net.Shutdown
import Verif.Net.C81
import Verif.Net.Clients
import Verif.Net.ClientsInv
import Verif.Net.C82
import Verif.Identity.Argon
import Verif.Identity.C83
import Verif.Identity.C83b
import Verif.Net.Certs
import Verif.Net.C84
import Verif.Async.Model
import Verif.Async.C85
import Verif.Storage.Lock
import Verif.Storage.C86
import Verif.Vault.Stores
import Verif.Vault.C87
import Verif.Views.Emit
import Verif.Views.C88
import Verif.Key.Describe
import Verif.Key.C89
import Verif.Schema.Summary
import Verif.Schema.C90
import Verif.Views.Pipeline
import Verif.Views.PipeInv
import Verif.Views.C91
import Verif.Cli.Password
import Verif.Cli.C92
import Verif.Tasks.JobError
import Verif.Tasks.C93
import Verif.Net.Browser
import Verif.Net.C94
import Verif.Store.OpenTrees
import Verif.Store.C95
import Verif.Cli.Commands
import Verif.Cli.C96
import Verif.Net.Callbacks
import Verif.Net.C97
import Verif.Net.Handshake
import Verif.Net.C98
import Verif.Storage.Registry
import Verif.Storage.C99
import Verif.Net.Acme
import Verif.Net.C100
import Verif.Identity.Tokens
import Verif.Identity.C101
import Verif.Identity.Groups
import Verif.Identity.C102
